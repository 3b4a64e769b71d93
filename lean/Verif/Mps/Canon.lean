import Verif.Mps.Model
import Verif.Mps.Trunc

/-! # `canonizeMPS` of lib/mpslib/mpsfunctions.py and `MPS.canonize` of lib/mpslib/mps.py -/

namespace PyTeN.Canon
open Finset

noncomputable section

/-! ## Model -/

/-- `A,r,Z=prepareTensor(Gamma[n],1); Gamma[n]=A; Gamma[n+1]=np.tensordot(r,Gamma[n+1],([1],[0]))` for all `n`,
lib/mpslib/mpsfunctions.py:2278-2285; the loop over `n` is a recursion over the list, `t` is `Gamma[n]`. -/
def qrSweep (O : LinAlg) : Ten ℂ → List (Ten ℂ) → Res (List (Ten ℂ))
  | t, [] =>
    match prepareTensor O t 1 with
    | .error e => .error e
    | .ok (A, _, _) => .ok [A]
  | t, u :: rest =>
    match prepareTensor O t 1 with
    | .error e => .error e
    | .ok (A, r, _) =>
      match absorbL r u with
      | .error e => .error e
      | .ok u' =>
        match qrSweep O u' rest with
        | .error e => .error e
        | .ok done => .ok (A :: done)

/-- Line 2289-2292: the last site keeps `B`, the others are `B·diag(1/Lam[n])` (`lam` is `Lam[n]`, `none` on the last
site).  numpy divides by a zero entry with a warning and goes on with inf and nan; here this is the error `nan`. -/
def gammaOf (B : Ten ℂ) : Option (List ℝ) → Res (Ten ℂ)
  | none => .ok B
  | some lam =>
    if (0 : ℝ) ∈ lam then .error .nan
    else absorbR B (diagMat (lam.map fun x => 1 / x))

/-- The loop of lib/mpslib/mpsfunctions.py:2287-2295 from the last site down to the first one: `t` is `Gamma[n]`, `left`
holds `Gamma[n-1],…,Gamma[0]`, `G` and `Ls` hold the finished `Gamma[n+1:]` and `Lam[n:]`. -/
def svdSweep (O : LinAlg) (thresh : ℝ) :
    Ten ℂ → List (Ten ℂ) → Option (List ℝ) → List (Ten ℂ) → List (List ℝ) → Res (List (Ten ℂ) × List (List ℝ))
  | t, [], lam, G, Ls =>
    match prepareTruncateL O t (some t.l) thresh with
    | .error e => .error e
    | .ok (_, _, B, _) =>
      match gammaOf B lam with
      | .error e => .error e
      | .ok g => .ok (g :: G, Ls)
  | t, u :: left, lam, G, Ls =>
    match prepareTruncateL O t (some t.l) thresh with
    | .error e => .error e
    | .ok (U, S, B, _) =>
      match gammaOf B lam with
      | .error e => .error e
      | .ok g =>
        match absorbR u (U.dot (diagMat S)) with
        | .error e => .error e
        | .ok u' => svdSweep O thresh u' left (some S) (g :: G) (S :: Ls)

/-- `canonizeMPS(mps,tr_thresh)` on the list of tensors, lib/mpslib/mpsfunctions.py:2242-2335.  The branch for
bond dimensions different from one at both ends calls the eigensolvers of infinite systems (`regaugeIMPS`) and is the
parameter `periodic`; different kinds of ends are `sys.exit`. -/
def canonizeMPS (O : LinAlg) (periodic : List (Ten ℂ) → Res (List (Ten ℂ) × List (List ℝ))) (thresh : ℝ) :
    List (Ten ℂ) → Res (List (Ten ℂ) × List (List ℝ))
  | [] => .error .index
  | t :: ts =>
    if t.l = 1 ∧ ((t :: ts).getLast (by simp)).r = 1 then
      match qrSweep O t ts with
      | .error e => .error e
      | .ok A =>
        match A.reverse with
        | [] => .error .index
        | a :: left =>
          match svdSweep O thresh a left none [] [] with
          | .error e => .error e
          | .ok (G, Ls) => .ok (G, [1] :: (Ls ++ [[1]]))
    else if t.l ≠ 1 ∧ ((t :: ts).getLast (by simp)).r ≠ 1 then periodic (t :: ts)
    else .error .exit

/-- `MPS.canonize()` for `obc=True`, lib/mpslib/mps.py:1046-1064: the new members `_gamma` and `_lambda`.  The regauging
that precedes it for `obc=False` is the parameter `regauge`. -/
def canonize (O : LinAlg) (periodic : List (Ten ℂ) → Res (List (Ten ℂ) × List (List ℝ)))
    (regauge : MPS → Res MPS) (m : MPS) : Res (List (Ten ℂ) × List (List ℝ)) :=
  if m.obc = false then
    match regauge m with
    | .error e => .error e
    | .ok m' => if m'.N = 0 then .error .assertion else canonizeMPS O periodic 1e-16 m'.tensors
  else if m.N = 0 then .error .assertion
  else canonizeMPS O periodic 1e-16 m.tensors

/-! ## The factorisation without truncation -/

/-- `prepareTruncate(tensor,-1,D=shape[0],thresh)` with a threshold up to `1E-16` cuts nothing off. -/
structure ExactSVD (t : Ten ℂ) (u : Mat ℂ) (s : List ℝ) (out : Ten ℂ) (Z : ℝ) : Prop where
  ur : u.r = t.l
  uc : u.c = s.length
  len : s.length = min t.l (t.d * t.r)
  ol : out.l = s.length
  outr : out.r = t.r
  od : out.d = t.d
  orth : RightOrth out
  iso : ∀ k < s.length, ∀ k' < s.length, ∑ i ∈ range t.l, star (u.v i k) * u.v i k' = delta ℂ k k'
  unit : s ≠ [] → norm2 s = 1
  Z0 : 0 ≤ Z
  Zsq : Z ^ 2 = t.sq
  nonneg : s ≠ [] → 0 < Z → ∀ x ∈ s, 0 ≤ x
  prod : ∀ i < t.l, ∀ j < t.r, ∀ x < t.d,
    t.v i j x = Z * ∑ k ∈ range s.length, u.v i k * ((s.getD k 0 : ℝ) : ℂ) * out.v k j x

theorem truncS_all {S : List ℝ} {D : ℕ} {th : ℝ} (h : S.length ≤ D) (ht : th ≤ 1e-16) : truncS S (some D) th = S := by
  unfold truncS
  simp only
  rw [if_neg (not_lt.mpr ht), List.take_of_length_le (by omega)]

theorem ten_sq_zero {t : Ten ℂ} (h : t.sq = 0) : ∀ i < t.l, ∀ j < t.r, ∀ x < t.d, t.v i j x = 0 := by
  intro i hi j hj x hx
  unfold Ten.sq at h
  have n1 : ∀ i j, 0 ≤ ∑ s ∈ range t.d, Complex.normSq (t.v i j s) := fun _ _ => sum_nonneg fun _ _ => Complex.normSq_nonneg _
  have h1 := (sum_eq_zero_iff_of_nonneg fun i _ => sum_nonneg fun j _ => n1 i j).mp h i (mem_range.mpr hi)
  have h2 := (sum_eq_zero_iff_of_nonneg fun j _ => n1 i j).mp h1 j (mem_range.mpr hj)
  have h3 := (sum_eq_zero_iff_of_nonneg fun s _ => Complex.normSq_nonneg _).mp h2 x (mem_range.mpr hx)
  exact Complex.normSq_eq_zero.mp h3

theorem exactSVD {O : LinAlg} (hO : O.Spec) {t : Ten ℂ} {th : ℝ} (ht : th ≤ 1e-16) {u : Mat ℂ} {s : List ℝ}
    {out : Ten ℂ} {Z : ℝ} (h : prepareTruncateL O t (some t.l) th = .ok (u, s, out, Z)) : ExactSVD t u s out Z := by
  obtain ⟨S, q⟩ := prepareTruncateL_spec hO h
  have hS : truncS S (some t.l) th = S := truncS_all (by rw [q.Slen]; omega) ht
  have hk : s.length = S.length := by rw [q.kept.2, hS]
  have htk : S.take s.length = S := List.take_of_length_le (by omega)
  have hv := q.vals
  rw [htk, q.Sn] at hv
  refine ⟨q.ur, q.uc, by rw [hk, q.Slen], q.ol, q.outr, q.od, q.orth, q.iso, q.unit, q.Z0, q.Zsq, ?_, ?_⟩
  · intro _ hZ x hx
    obtain ⟨k, hk', rfl⟩ := List.mem_iff_getElem.mp hx
    have h1 := hv k hk'
    have h2 : 0 ≤ S.getD k 0 := by
      rw [List.getD_eq_getElem?_getD, List.getElem?_eq_getElem (show k < S.length by omega)]
      exact q.nonneg _ (List.getElem_mem _)
    rw [List.getD_eq_getElem?_getD (l := s), List.getElem?_eq_getElem hk'] at h1
    simp only [Option.getD_some] at h1
    rw [h1] at h2
    exact nonneg_of_mul_nonneg_right h2 hZ
  · intro i hi j hj x hx
    have e := q.err
    rw [hk, List.drop_length] at e
    simp only [List.map_nil, List.sum_nil] at e
    have := ten_sq_zero e i hi j hj x hx
    simp only [sub_eq_zero] at this
    rw [this, hk, mul_sum]
    refine sum_congr rfl fun k hkk => ?_
    rw [hv k (by rw [hk]; exact mem_range.mp hkk)]
    push_cast; ring

end

end PyTeN.Canon
