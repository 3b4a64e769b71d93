import Verif.Mps.Position
import Verif.Mps.Trunc
import Verif.Mps.Canon

/-!
# Orthonormalisation of plain lists of tensors

`prepareTensorSVD`, `orthonormalizeQR`, `orthonormalizeSVD` and `truncateMPS` of lib/mpslib/mpsfunctions.py.  The list `mps`
is mutated in place by the code; here the new list is part of the result.
-/

namespace PyTeN.Ortho
open Finset

noncomputable section

/-! ## Model -/

/-- The phases of lib/mpslib/mpsfunctions.py:618-622 (`direction>0`): `unit=diag(exp(-1j*angle(diag(u))))`,
`u=u.dot(herm(unit))`, `v=unit.dot(v)`. -/
def fixR (fixphase : Bool) (u v : Mat ℂ) : Mat ℂ × Mat ℂ :=
  if fixphase then
    (⟨u.r, u.c, fun i k => u.v i k * star (unphase (u.v k k))⟩, ⟨v.r, v.c, fun k j => unphase (u.v k k) * v.v k j⟩)
  else (u, v)

/-- The phases of lib/mpslib/mpsfunctions.py:632-636 (`direction<0`): `unit` is made of the diagonal of `v`. -/
def fixL (fixphase : Bool) (u v : Mat ℂ) : Mat ℂ × Mat ℂ :=
  if fixphase then
    (⟨u.r, u.c, fun i k => u.v i k * star (unphase (v.v k k))⟩, ⟨v.r, v.c, fun k j => unphase (v.v k k) * v.v k j⟩)
  else (u, v)

/-- `prepareTensorSVD(tensor,direction>0,fixphase)`, lib/mpslib/mpsfunctions.py:603-627: `out,s,v,Z`.  A zero norm `Z`
(NaN in numpy) is the error `nan`. -/
def svdR (O : LinAlg) (fixphase : Bool) (t : Ten ℂ) : Res (Ten ℂ × List ℝ × Mat ℂ × ℝ) :=
  let S := (O.svd t.rowMat).2.1
  let uv := fixR fixphase (O.svd t.rowMat).1 (O.svd t.rowMat).2.2
  let Z := norm2 S
  if Z = 0 then .error .nan else
  .ok (⟨t.l, uv.1.c, t.d, fun i k s => uv.1.v (s * t.l + i) k⟩, S.map (· / Z), uv.2, Z)

/-- `prepareTensorSVD(tensor,direction<0,fixphase)`, lib/mpslib/mpsfunctions.py:629-642: `out,s,u,Z`. -/
def svdL (O : LinAlg) (fixphase : Bool) (t : Ten ℂ) : Res (Ten ℂ × List ℝ × Mat ℂ × ℝ) :=
  let S := (O.svd t.colMat).2.1
  let uv := fixL fixphase (O.svd t.colMat).1 (O.svd t.colMat).2.2
  let Z := norm2 S
  if Z = 0 then .error .nan else
  .ok (⟨uv.2.r, t.r, t.d, fun k j s => uv.2.v k (j * t.d + s)⟩, S.map (· / Z), uv.1, Z)

/-- `prepareTensorSVD(tensor,direction,fixphase)`; `direction=0` is an AssertionError (line 614). -/
def prepareTensorSVD (O : LinAlg) (t : Ten ℂ) (direction : ℤ) (fixphase : Bool := false) :
    Res (Ten ℂ × List ℝ × Mat ℂ × ℝ) :=
  if direction = 0 then .error .assertion
  else if direction > 0 then svdR O fixphase t else svdL O fixphase t

/-- `tensor,lam,v,Z_=prepareTensorSVD(mps[site],direction); mat=np.diag(lam).dot(v)`,
lib/mpslib/mpsfunctions.py:877-878. -/
def cutSR (O : LinAlg) (t : Ten ℂ) : Res (Ten ℂ × Mat ℂ × ℝ) :=
  match prepareTensorSVD O t 1 with
  | .error e => .error e
  | .ok (a, lam, v, Z) => .ok (a, (diagMat lam).dot v, Z)

/-- `tensor,lam,v,Z_=prepareTensorSVD(mps[site],direction); mat=v.dot(np.diag(lam))`,
lib/mpslib/mpsfunctions.py:886-887. -/
def cutSL (O : LinAlg) (t : Ten ℂ) : Res (Ten ℂ × Mat ℂ × ℝ) :=
  match prepareTensorSVD O t (-1) with
  | .error e => .error e
  | .ok (a, lam, v, Z) => .ok (a, v.dot (diagMat lam), Z)

/-- The loop `for site in range(site1,site2+1)` of lib/mpslib/mpsfunctions.py:842-847 and 876-882: `k` sites are left, the
current one is `n`, `N=len(mps)`; the bond matrix goes into the next site whenever there is one (`site<N-1`). -/
def loopR (cut : Ten ℂ → Res (Ten ℂ × Mat ℂ × ℝ)) (N : ℕ) : ℕ → ℕ → Sweep → Res Sweep
  | 0, _, w => .ok w
  | k + 1, n, w =>
    match getT w.ts n with
    | .error e => .error e
    | .ok t =>
      match cut t with
      | .error e => .error e
      | .ok (a, m, z) =>
        let ts := w.ts.set n a
        let Z := w.Z * (z : ℂ)
        if n + 1 < N then
          match getT ts (n + 1) with
          | .error e => .error e
          | .ok t1 =>
            match absorbL m t1 with
            | .error e => .error e
            | .ok t1' => loopR cut N k (n + 1) ⟨ts.set (n + 1) t1', m, Z⟩
        else loopR cut N k (n + 1) ⟨ts, m, Z⟩

/-- The loop `for site in range(site2,site1-1,-1)` of lib/mpslib/mpsfunctions.py:850-855 and 885-891: `k` sites are left,
the current one is `lo+k-1` with `lo=site1`; the bond matrix goes into the previous site whenever there is one
(`site>0`). -/
def loopL (cut : Ten ℂ → Res (Ten ℂ × Mat ℂ × ℝ)) (lo : ℕ) : ℕ → Sweep → Res Sweep
  | 0, w => .ok w
  | k + 1, w =>
    let n := lo + k
    match getT w.ts n with
    | .error e => .error e
    | .ok t =>
      match cut t with
      | .error e => .error e
      | .ok (a, m, z) =>
        let ts := w.ts.set n a
        let Z := w.Z * (z : ℂ)
        if n > 0 then
          match getT ts (n - 1) with
          | .error e => .error e
          | .ok t1 =>
            match absorbR t1 m with
            | .error e => .error e
            | .ok t1' => loopL cut lo k ⟨ts.set (n - 1) t1', m, Z⟩
        else loopL cut lo k ⟨ts, m, Z⟩

/-- `r*Z`. -/
def scale (m : Mat ℂ) (z : ℂ) : Mat ℂ := ⟨m.r, m.c, fun i j => m.v i j * z⟩

/-- The body of `orthonormalizeQR` and `orthonormalizeSVD` after the assertions: the number of sites is
`site2+1-site1`; without any, `r` (`mat`) is unbound in the return statement (lines 856, 892). -/
def run (cutR cutL : Ten ℂ → Res (Ten ℂ × Mat ℂ × ℝ)) (ts : List (Ten ℂ)) (direction : ℤ) (site1 : ℕ) (site2 : ℤ) :
    Res (List (Ten ℂ) × Mat ℂ) :=
  let k := (site2 + 1 - site1).toNat
  if k = 0 then .error .unbound else
  let w0 : Sweep := ⟨ts, ⟨0, 0, fun _ _ => 0⟩, 1⟩
  match (if direction > 0 then loopR cutR ts.length k site1 w0 else loopL cutL site1 k w0) with
  | .error e => .error e
  | .ok w => .ok (w.ts, scale w.mat w.Z)

/-- `orthonormalizeQR(mps,direction,site1,site2)`, lib/mpslib/mpsfunctions.py:820-856; the new list and `r*Z`. -/
def orthonormalizeQR (O : LinAlg) (ts : List (Ten ℂ)) (direction site1 site2 : ℤ) : Res (List (Ten ℂ) × Mat ℂ) :=
  if direction = 0 then .error .assertion
  else if ¬ site2 < ts.length then .error .assertion
  else if ¬ site1 ≥ 0 then .error .assertion
  else run (fun t => prepareTensor O t 1) (fun t => prepareTensor O t (-1)) ts direction site1.toNat site2

/-- `orthonormalizeSVD(mps,direction,site1,site2)`, lib/mpslib/mpsfunctions.py:858-892; the new list and `mat*Z`.
Simplified: `site1` is a natural number (the code does not check it and a negative one wraps around). -/
def orthonormalizeSVD (O : LinAlg) (ts : List (Ten ℂ)) (direction : ℤ) (site1 : ℕ) (site2 : ℤ) :
    Res (List (Ten ℂ) × Mat ℂ) :=
  if direction = 0 then .error .assertion else run (cutSR O) (cutSL O) ts direction site1 site2

/-- The loop of lib/mpslib/mpsfunctions.py:2230-2238 as a recursion over the list, `t` is `mps[site]`:
`tensor,lam,v,Z=prepareTruncate(mps[site],1,D)` (with the default `thresh=1E-32`), `mat=diag(lam).dot(v)` goes into the
next site, and on the last site `diag(lam)` is multiplied into the tensor.  The new list and `lams`. -/
def truncLoop (O : LinAlg) (D : ℕ) : Ten ℂ → List (Ten ℂ) → Res (List (Ten ℂ) × List (List ℝ))
  | t, [] =>
    match prepareTruncateR O t (some D) 1e-32 with
    | .error e => .error e
    | .ok (a, lam, _, _) =>
      match absorbR a (diagMat lam) with
      | .error e => .error e
      | .ok a' => .ok ([a'], [lam])
  | t, u :: rest =>
    match prepareTruncateR O t (some D) 1e-32 with
    | .error e => .error e
    | .ok (a, lam, v, _) =>
      match absorbL ((diagMat lam).dot v) u with
      | .error e => .error e
      | .ok u' =>
        match truncLoop O D u' rest with
        | .error e => .error e
        | .ok (done, lams) => .ok (a :: done, lam :: lams)

/-- `truncateMPS(mps,D)`, lib/mpslib/mpsfunctions.py:2220-2239; an empty list raises UnboundLocalError in
`orthonormalizeQR`. -/
def truncateMPS (O : LinAlg) (ts : List (Ten ℂ)) (D : ℕ) : Res (List (Ten ℂ) × List (List ℝ)) :=
  match orthonormalizeQR O ts (-1) 0 (ts.length - 1) with
  | .error e => .error e
  | .ok ([], _) => .ok ([], [])
  | .ok (t :: rest, _) => truncLoop O D t rest

/-! ## The factorisation by svd is exact -/

theorem fixR_spec {A u v : Mat ℂ} {s : List ℝ} (h : SVDSpec A u s v) (f : Bool) :
    SVDSpec A (fixR f u v).1 s (fixR f u v).2 := by
  cases f with
  | false => exact h
  | true =>
    refine ⟨h.u_r, h.u_c, h.len, h.v_r, h.v_c, h.nonneg, h.sorted, ?_, ?_, ?_⟩
    · intro i hi j hj
      rw [← h.prod i hi j hj]
      refine sum_congr rfl fun k _ => ?_
      simp only [fixR, if_true]
      linear_combination (u.v i k * ((s.getD k 0 : ℝ) : ℂ) * v.v k j) * star_mul_unphase (u.v k k)
    · intro k hk k' hk'
      simp only [fixR, if_true]
      have : ∀ i, star (u.v i k * star (unphase (u.v k k))) * (u.v i k' * star (unphase (u.v k' k')))
          = (unphase (u.v k k) * star (unphase (u.v k' k'))) * (star (u.v i k) * u.v i k') := by
        intro i; simp only [star_mul', star_star]; ring
      simp_rw [this]
      rw [← mul_sum, h.isoU k hk k' hk']
      by_cases e : k = k'
      · subst e; rw [unphase_mul_star, one_mul]
      · simp [delta_ne e]
    · intro k hk k' hk'
      simp only [fixR, if_true]
      have : ∀ j, unphase (u.v k k) * v.v k j * star (unphase (u.v k' k') * v.v k' j)
          = (unphase (u.v k k) * star (unphase (u.v k' k'))) * (v.v k j * star (v.v k' j)) := by
        intro i; simp only [star_mul']; ring
      simp_rw [this]
      rw [← mul_sum, h.isoV k hk k' hk']
      by_cases e : k = k'
      · subst e; rw [unphase_mul_star, one_mul]
      · simp [delta_ne e]

theorem fixL_spec {A u v : Mat ℂ} {s : List ℝ} (h : SVDSpec A u s v) (f : Bool) :
    SVDSpec A (fixL f u v).1 s (fixL f u v).2 := by
  cases f with
  | false => exact h
  | true =>
    refine ⟨h.u_r, h.u_c, h.len, h.v_r, h.v_c, h.nonneg, h.sorted, ?_, ?_, ?_⟩
    · intro i hi j hj
      rw [← h.prod i hi j hj]
      refine sum_congr rfl fun k _ => ?_
      simp only [fixL, if_true]
      linear_combination (u.v i k * ((s.getD k 0 : ℝ) : ℂ) * v.v k j) * star_mul_unphase (v.v k k)
    · intro k hk k' hk'
      simp only [fixL, if_true]
      have : ∀ i, star (u.v i k * star (unphase (v.v k k))) * (u.v i k' * star (unphase (v.v k' k')))
          = (unphase (v.v k k) * star (unphase (v.v k' k'))) * (star (u.v i k) * u.v i k') := by
        intro i; simp only [star_mul', star_star]; ring
      simp_rw [this]
      rw [← mul_sum, h.isoU k hk k' hk']
      by_cases e : k = k'
      · subst e; rw [unphase_mul_star, one_mul]
      · simp [delta_ne e]
    · intro k hk k' hk'
      simp only [fixL, if_true]
      have : ∀ j, unphase (v.v k k) * v.v k j * star (unphase (v.v k' k') * v.v k' j)
          = (unphase (v.v k k) * star (unphase (v.v k' k'))) * (v.v k j * star (v.v k' j)) := by
        intro i; simp only [star_mul']; ring
      simp_rw [this]
      rw [← mul_sum, h.isoV k hk k' hk']
      by_cases e : k = k'
      · subst e; rw [unphase_mul_star, one_mul]
      · simp [delta_ne e]

theorem getD_div (S : List ℝ) (z : ℝ) (k : ℕ) : (S.map (· / z)).getD k 0 = S.getD k 0 / z := by
  simp only [List.getD_eq_getElem?_getD, List.getElem?_map]
  cases S[k]? <;> simp

/-- `diag(s/|s|)·v` has unit norm if the rows of `v` are orthonormal. -/
theorem norm_dv {n C : ℕ} {S : List ℝ} {v : Mat ℂ} (hlen : S.length = n) (hc : v.c = C)
    (hv : ∀ k < n, ∀ k' < n, ∑ j ∈ range C, v.v k j * star (v.v k' j) = delta ℂ k k') (hz : norm2 S ≠ 0) :
    normF ((diagMat (S.map (· / norm2 S))).dot v) = 1 := by
  apply normF_eq_of_sq zero_le_one
  have e := usv_normSq (R := n) (n := n) (u := fun i j => delta ℂ i j) (v := v.v) (C := C)
    (fun k hk k' hk' => by
      have : ∀ i ∈ range n, star (delta ℂ i k) * delta ℂ i k' = delta ℂ k i * delta ℂ i k' := by
        intro i _; unfold delta; by_cases h : i = k
        · simp [h]
        · simp [h, Ne.symm h]
      rw [sum_congr rfl this, sum_delta_left hk]) hv (fun k => S.getD k 0 / norm2 S)
  have hs : ∑ k ∈ range n, (S.getD k 0 / norm2 S) ^ 2 = 1 := by
    simp_rw [div_pow, ← sum_div]
    rw [← hlen, ← norm2_sq, div_self (pow_ne_zero _ hz)]
  rw [hs] at e
  rw [one_pow, ← e]
  refine sum_congr ?_ fun i hi => sum_congr ?_ fun j _ => ?_
  · simp [Mat.dot, diagMat, hlen]
  · simp [Mat.dot, hc]
  · have hi' : i < n := by simpa [Mat.dot, diagMat, hlen] using hi
    congr 1
    simp only [Mat.dot, diagMat, List.length_map, hlen, getD_div]
    refine sum_congr rfl fun k _ => ?_
    unfold delta
    by_cases h : i = k <;> simp [h]

/-- `u·diag(s/|s|)` has unit norm if the columns of `u` are orthonormal. -/
theorem norm_ud {n R : ℕ} {S : List ℝ} {u : Mat ℂ} (hlen : S.length = n) (hr : u.r = R) (hc : u.c = n)
    (hu : ∀ k < n, ∀ k' < n, ∑ i ∈ range R, star (u.v i k) * u.v i k' = delta ℂ k k') (hz : norm2 S ≠ 0) :
    normF (u.dot (diagMat (S.map (· / norm2 S)))) = 1 := by
  apply normF_eq_of_sq zero_le_one
  have e := usv_normSq (R := R) (n := n) (u := u.v) (v := fun i j => delta ℂ i j) (C := n) hu
    (fun k hk k' hk' => by
      have : ∀ i ∈ range n, delta ℂ k i * star (delta ℂ k' i) = delta ℂ k i * delta ℂ i k' := by
        intro i _; unfold delta; by_cases h : k' = i <;> simp [h, eq_comm]
      rw [sum_congr rfl this, sum_delta_left hk]) (fun k => S.getD k 0 / norm2 S)
  have hs : ∑ k ∈ range n, (S.getD k 0 / norm2 S) ^ 2 = 1 := by
    simp_rw [div_pow, ← sum_div]
    rw [← hlen, ← norm2_sq, div_self (pow_ne_zero _ hz)]
  rw [hs] at e
  rw [one_pow, ← e]
  refine sum_congr ?_ fun i _ => sum_congr ?_ fun j _ => ?_
  · simp [Mat.dot, hr]
  · simp [Mat.dot, diagMat, hlen]
  · congr 1
    simp only [Mat.dot, diagMat, hc, getD_div]
    refine sum_congr rfl fun k _ => ?_
    unfold delta
    by_cases h : k = j <;> simp [h]

/-- A full svd of the row matrix is an exact factorisation to the right. -/
theorem exactR_of {t : Ten ℂ} {u v : Mat ℂ} {S : List ℝ} (h : SVDSpec t.rowMat u S v) (hz : norm2 S ≠ 0) :
    ExactR t ⟨t.l, u.c, t.d, fun i k s => u.v (s * t.l + i) k⟩ ((diagMat (S.map (· / norm2 S))).dot v) (norm2 S) := by
  have hrow : t.rowMat.r = t.d * t.l := rfl
  have hcol : t.rowMat.c = t.r := rfl
  have hr : ((diagMat (S.map (· / norm2 S))).dot v).r = min (t.d * t.l) t.r := by
    simp [Mat.dot, diagMat, h.len, hrow, hcol]
  refine ⟨rfl, rfl, ?_, ?_, ?_, ?_, lt_of_le_of_ne (norm2_nonneg _) (Ne.symm hz), ?_, ?_, ?_⟩
  · rw [hr]; exact h.u_c
  · exact h.v_c
  · rw [hr]; omega
  · rw [hr]; omega
  · intro j hj j' hj'
    simp only [h.u_c] at hj hj'
    have := h.isoU j hj j' hj'
    rw [hrow, sum_range_mul] at this
    exact this
  · exact norm_dv h.len h.v_c h.isoV hz
  · intro i hi j hj s hs
    have := h.prod (s * t.l + i) (by rw [hrow]; exact idx_lt hs hi) j (by rw [hcol]; exact hj)
    have hA : t.rowMat.v (s * t.l + i) j = t.v i j s := by
      simp [Ten.rowMat, idx_div hi, idx_mod hi]
    rw [hA] at this
    rw [← this, hr, mul_sum]
    refine sum_congr rfl fun k hk => ?_
    have hk' : k < S.length := by rw [h.len]; exact mem_range.1 hk
    have hz' : ((norm2 S : ℝ) : ℂ) ≠ 0 := by exact_mod_cast hz
    simp only [Mat.dot, diagMat, List.length_map, getD_div]
    rw [sum_eq_single k (fun b _ hb => by simp [Ne.symm hb]) (fun hn => absurd (mem_range.2 hk') hn)]
    simp only [if_true]
    push_cast
    field_simp

/-- A full svd of the column matrix is an exact factorisation to the left. -/
theorem exactL_of {t : Ten ℂ} {u v : Mat ℂ} {S : List ℝ} (h : SVDSpec t.colMat u S v) (hz : norm2 S ≠ 0) :
    ExactL t ⟨v.r, t.r, t.d, fun k j s => v.v k (j * t.d + s)⟩ (u.dot (diagMat (S.map (· / norm2 S)))) (norm2 S) := by
  have hrow : t.colMat.r = t.l := rfl
  have hcol : t.colMat.c = t.d * t.r := rfl
  have hr : (u.dot (diagMat (S.map (· / norm2 S)))).c = min t.l (t.d * t.r) := by
    simp [Mat.dot, diagMat, h.len, hrow, hcol]
  refine ⟨rfl, rfl, ?_, ?_, ?_, ?_, lt_of_le_of_ne (norm2_nonneg _) (Ne.symm hz), ?_, ?_, ?_⟩
  · rw [hr]; exact h.v_r
  · exact h.u_r
  · rw [hr]; omega
  · rw [hr]; omega
  · intro j hj j' hj'
    simp only [h.v_r] at hj hj'
    have := h.isoV j hj j' hj'
    rw [hcol, mul_comm t.d, sum_range_mul'] at this
    exact this
  · exact norm_ud h.len h.u_r h.u_c h.isoU hz
  · intro i hi j hj s hs
    have := h.prod i (by rw [hrow]; exact hi) (j * t.d + s) (by rw [hcol, mul_comm t.d]; exact idx_lt hj hs)
    have hA : t.colMat.v i (j * t.d + s) = t.v i j s := by
      simp [Ten.colMat, idx_div hs, idx_mod hs]
    rw [hA] at this
    rw [← this, hr, mul_sum]
    refine sum_congr rfl fun k hk => ?_
    have hk' : k < S.length := by rw [h.len]; exact mem_range.1 hk
    have hz' : ((norm2 S : ℝ) : ℂ) ≠ 0 := by exact_mod_cast hz
    have hku : k < u.c := by rw [h.u_c]; exact mem_range.1 hk
    simp only [Mat.dot, diagMat, getD_div]
    rw [sum_eq_single k (fun b _ hb => by simp [hb]) (fun hn => absurd (mem_range.2 hku) hn)]
    simp only [if_true]
    push_cast
    field_simp

theorem cutSR_exact {O : LinAlg} (hO : O.Spec) (t a : Ten ℂ) (m : Mat ℂ) (z : ℝ) (h : cutSR O t = .ok (a, m, z)) :
    ExactR t a m z := by
  unfold cutSR prepareTensorSVD svdR at h
  simp only [one_ne_zero, if_false, gt_iff_lt, zero_lt_one, if_true] at h
  split at h
  · cases h
  rename_i a' lam v Z' heq
  split at heq
  · cases heq
  rename_i hz
  simp only [Except.ok.injEq, Prod.mk.injEq] at h heq
  obtain ⟨rfl, rfl, rfl⟩ := h
  obtain ⟨rfl, rfl, rfl, rfl⟩ := heq
  exact exactR_of (fixR_spec (hO.svd t.rowMat) false) hz

theorem cutSL_exact {O : LinAlg} (hO : O.Spec) (t a : Ten ℂ) (m : Mat ℂ) (z : ℝ) (h : cutSL O t = .ok (a, m, z)) :
    ExactL t a m z := by
  unfold cutSL prepareTensorSVD svdL at h
  simp only [show ((-1 : ℤ) = 0) = False by simp, if_false, show ((-1 : ℤ) > 0) = False by simp] at h
  split at h
  · cases h
  rename_i a' lam v Z' heq
  split at heq
  · cases heq
  rename_i hz
  simp only [Except.ok.injEq, Prod.mk.injEq] at h heq
  obtain ⟨rfl, rfl, rfl⟩ := h
  obtain ⟨rfl, rfl, rfl, rfl⟩ := heq
  exact exactL_of (fixL_spec (hO.svd t.colMat) false) hz

theorem cutSR_err {O : LinAlg} (hO : O.Spec) (t : Ten ℂ) (e : PyErr) (h : cutSR O t = .error e) :
    e = .nan ∧ ∀ i < t.l, ∀ j < t.r, ∀ s < t.d, t.v i j s = 0 := by
  unfold cutSR prepareTensorSVD svdR at h
  simp only [one_ne_zero, if_false, gt_iff_lt, zero_lt_one, if_true] at h
  split at h
  · rename_i e' heq
    split at heq
    · rename_i hz
      cases h; cases heq
      refine ⟨rfl, fun i hi j hj s hs => ?_⟩
      rw [(hO.svd t.rowMat).norm2_eq, normF_eq_zero] at hz
      have := hz (s * t.l + i) (idx_lt hs hi) j hj
      simpa [Ten.rowMat, idx_div hi, idx_mod hi] using this
    · cases heq
  · cases h

theorem cutSL_err {O : LinAlg} (hO : O.Spec) (t : Ten ℂ) (e : PyErr) (h : cutSL O t = .error e) :
    e = .nan ∧ ∀ i < t.l, ∀ j < t.r, ∀ s < t.d, t.v i j s = 0 := by
  unfold cutSL prepareTensorSVD svdL at h
  simp only [show ((-1 : ℤ) = 0) = False by simp, if_false, show ((-1 : ℤ) > 0) = False by simp] at h
  split at h
  · rename_i e' heq
    split at heq
    · rename_i hz
      cases h; cases heq
      refine ⟨rfl, fun i hi j hj s hs => ?_⟩
      rw [(hO.svd t.colMat).norm2_eq, normF_eq_zero] at hz
      have := hz i hi (j * t.d + s) (by show _ < t.d * t.r; rw [mul_comm t.d]; exact idx_lt hj hs)
      simpa [Ten.colMat, idx_div hs, idx_mod hs] using this
    · cases heq
  · cases h

end

end PyTeN.Ortho
