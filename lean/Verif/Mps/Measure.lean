import Verif.Mps.Restore
import Verif.Env.OpChain
import Verif.Mps.Ops
import Verif.Props.Position

/-! # Overlaps and local measurements: model -/

namespace PyTeN
open Finset

noncomputable section

/-! ## Model -/

/-- `np.trace(E[:,:,0])`. -/
def Env.trace (E : Env ℂ) : ℂ := ∑ i ∈ range (min E.u E.w), E.v i i 0

/-- First contraction of `overlap`, lib/mpslib/mpsfunctions.py:69 (the shape check of `ncon` raises
ValueError). -/
def overlapFirst (A B : Ten ℂ) : Res (Env ℂ) :=
  if A.l = B.l ∧ A.d = B.d then
    .ok ⟨A.r, B.r, 1, fun j j' _ => ∑ i ∈ range A.l, ∑ s ∈ range A.d, A.v i j s * star (B.v i j' s)⟩
  else .error .value

/-- The contraction part of `overlap`, lib/mpslib/mpsfunctions.py:58-71.  `mps[0]` of an empty object
raises AssertionError in `__getitem__`. -/
def overlapL (ts1 ts2 : List (Ten ℂ)) : Res (Env ℂ) :=
  if ts1.length ≠ ts2.length then .error .value
  else match ts1.head?, ts1.getLast?, ts2.head?, ts2.getLast? with
    | some a, some z, some b, some y =>
      if a.l ≠ 1 then .error .value
      else if z.r ≠ 1 then .error .value
      else if b.l ≠ 1 then .error .value
      else if y.r ≠ 1 then .error .value
      else match overlapFirst a b with
        | .error e => .error e
        | .ok L => elayersR ts1 ts2 (List.range' 1 (ts1.length - 1)) L
    | _, _, _, _ => .error .assertion

/-- `overlap(mps1,mps2)` for two MPS objects, lib/mpslib/mpsfunctions.py:36-76: the value and the two
objects afterwards.  (Lists as arguments fail with AttributeError in the last line, not modelled.) -/
def overlap (O : LinAlg) (m1 m2 : MPS) : Res (ℂ × MPS × MPS) :=
  let b : ℤ × ℤ := if (m1.N : ℤ) - m1.pos > m1.pos then (0, 0) else (m1.N, m2.N)
  match m1.position O b.1 with
  | .error e => .error e
  | .ok n1 =>
    match m2.position O b.2 with
    | .error e => .error e
    | .ok n2 =>
      match overlapL n1.tensors n2.tensors with
      | .error e => .error e
      | .ok L =>
        match n1.position O m1.pos with
        | .error e => .error e
        | .ok p1 =>
          match n2.position O m2.pos with
          | .error e => .error e
          | .ok p2 => .ok (L.trace * p1.Z * star p2.Z, p1, p2)

/-- Loop of `measureLocal(...,ortho='right')`, lib/mpslib/mpsfunctions.py:436-456.  A vanishing
denominator gives NaN. -/
def measRLoop : List (Ten ℂ) → List (Mat ℂ) → Env ℂ → Res (List ℂ)
  | t :: ts, o :: os, L0 =>
    match addLayerR L0 t o.mpo t with
    | .error e => .error e
    | .ok Lm =>
      match addELayerR L0 t t with
      | .error e => .error e
      | .ok L1 =>
        if L1.trace = 0 then .error .nan
        else match measRLoop ts os L1 with
          | .error e => .error e
          | .ok l => .ok (Lm.trace / L1.trace :: l)
  | _, _, _ => .ok []

/-- Loop of `measureLocal(...,ortho='left')`, lib/mpslib/mpsfunctions.py:458-474; the lists are in
processing order (from right to left), and so is the result. -/
def measLLoop : List (Ten ℂ) → List (Mat ℂ) → Env ℂ → Res (List ℂ)
  | t :: ts, o :: os, R0 =>
    match addLayerL R0 t o.mpo t with
    | .error e => .error e
    | .ok Rm =>
      match addELayerL R0 t t with
      | .error e => .error e
      | .ok R1 =>
        if R1.trace = 0 then .error .nan
        else match measLLoop ts os R1 with
          | .error e => .error e
          | .ok l => .ok (Rm.trace / R1.trace :: l)
  | _, _, _ => .ok []

/-- `mf.measureLocal(mps,operators,lb,rb,ortho)`, lib/mpslib/mpsfunctions.py:405-474, with
`right := (ortho=='right')` (other strings than 'left', 'right' raise ValueError, not modelled).  The
boundaries have MPO dimension 1. -/
def mfMeasureLocal (ts : List (Ten ℂ)) (ops : List (Mat ℂ)) (lb rb : Env ℂ) (right : Bool) : Res (List ℂ) :=
  if ts.length ≠ ops.length then .error .value
  else if ts = [] then .error .index
  else if right then measRLoop ts ops lb
  else match measLLoop ts.reverse ops.reverse rb with
    | .error e => .error e
    | .ok l => .ok l.reverse

/-- `MPS.measureList(ops)`, lib/mpslib/mps.py:793-811, with `lb=rb=None`: `none` is the value
`NotImplemented`. -/
def MPS.measureList (O : LinAlg) (m : MPS) (ops : List (Mat ℂ)) : Res (Option (List ℂ) × MPS) :=
  if m.obc = false then .ok (none, m)
  else match m.position O 0 with
    | .error e => .error e
    | .ok m1 =>
      match mfMeasureLocal m1.tensors ops oneEnv oneEnv true with
      | .error e => .error e
      | .ok L =>
        match m1.position O m.pos with
        | .error e => .error e
        | .ok m2 => .ok (some (L.map fun x => x * m2.Z * star m2.Z), m2)

/-- `ncon([t,conj(t),op],[[1,3,2],[1,3,4],[2,4]])`, lib/mpslib/mps.py:881. -/
def localContr (t : Ten ℂ) (op : Mat ℂ) : Res ℂ :=
  if op.r = t.d ∧ op.c = t.d then
    .ok (∑ i ∈ range t.l, ∑ j ∈ range t.r, ∑ s ∈ range t.d, ∑ s' ∈ range t.d,
      t.v i j s * star (t.v i j s') * op.v s s')
  else .error .value

/-- `MPS.measureLocal(op,site)`, lib/mpslib/mps.py:851-881, with `lb=rb=None`. -/
def MPS.measureLocal (O : LinAlg) (m : MPS) (op : Mat ℂ) (site : ℤ) : Res (Option ℂ × MPS) :=
  if m.obc = false then .ok (none, m)
  else match m.position O (site + 1) with
    | .error e => .error e
    | .ok m1 =>
      match m1.tensor site with
      | .error e => .error e
      | .ok (t, m1') =>
        match m1'.position O m.pos with
        | .error e => .error e
        | .ok m2 =>
          match localContr t op with
          | .error e => .error e
          | .ok c => .ok (some (c * m2.Z * star m2.Z), m2)

/-! ## Specification -/

/-- Spec: `Σ_{s,s'} ψ(s) O(s,s') conj ψ(s')` for a product of one-site operators `O`. -/
def MPS.expect (m : MPS) (ops : List (Mat ℂ)) : ℂ :=
  sumCfg m.ds fun s => sumCfg m.ds fun s' => m.amp s 0 0 * opEl ops s s' * star (m.amp s' 0 0)

/-- Spec: the operator `op` on site `n`, the identity elsewhere. -/
def siteOps (ds : List ℕ) (n : ℕ) (op : Mat ℂ) : List (Mat ℂ) := (ds.map (eyeK ℂ)).set n op

/-! ## Lemmas -/

/-- moving away and back. -/
structure Back (m m1 m2 : MPS) (l r b : ℕ) : Prop where
  fst : Moved m m1 l r b
  snd : Moved m1 m2 l r m.pos
  Z : m2.Z = m1.Z
  bN : b ≤ m.N

theorem position_back' {O : LinAlg} (hO : O.Spec) {m m1 m2 : MPS} {l r : ℕ} {b : ℤ} (hw : m.WF l r)
    (hs : m.sth < 1e-15) (h1 : m.position O b = .ok m1) (h2 : m1.position O m.pos = .ok m2) :
    0 ≤ b ∧ Back m m1 m2 l r b.toNat := by
  obtain ⟨hb0, hbN, M1⟩ := position_moved hO (effSth_default hs) hw h1
  have hs1 : m1.sth < 1e-15 := by rw [M1.sth]; exact hs
  obtain ⟨-, -, M2⟩ := position_moved hO (effSth_default hs1) M1.wf h2
  rw [Int.toNat_natCast] at M2
  exact ⟨hb0, M1, M2, position_back hO hs M1 h2 hw.pos_le, by omega⟩

theorem Back.amp {m m1 m2 : MPS} {l r b : ℕ} (h : Back m m1 m2 l r b) :
    ∀ s, Cfg m.tensors s → ∀ i < l, ∀ j, m2.amp s i j = m.amp s i j := by
  intro s hs i hi j
  rw [h.snd.amp s (cfg_of_ds h.fst.ds hs) i hi j, h.fst.amp s hs i hi j]

theorem Back.ds {m m1 m2 : MPS} {l r b : ℕ} (h : Back m m1 m2 l r b) : m2.ds = m.ds := h.snd.ds.trans h.fst.ds

theorem canonical_moved {m m' : MPS} {l r b : ℕ} (hM : Moved m m' l r b) (hc : m.Canonical)
    (hself : b = m.pos → normF m'.mat = 1) : m'.Canonical := by
  refine ⟨?_, ?_, ?_⟩
  · intro x t hx hxp
    rw [hM.pos] at hxp
    by_cases h2 : m.pos ≤ x
    · exact hM.left x t hx h2 hxp
    · rw [hM.same x (Or.inl ⟨by omega, hxp⟩)] at hx
      exact hc.left x t hx (by omega)
  · intro x t hx hxp
    rw [hM.pos] at hxp
    by_cases h2 : m.pos ≤ x
    · rw [hM.same x (Or.inr ⟨h2, hxp⟩)] at hx
      exact hc.right x t hx h2
    · exact hM.right x t hx hxp (by omega)
  · by_cases h2 : b = m.pos
    · exact hself h2
    · exact hM.norm h2

theorem position_same {O : LinAlg} {m m' : MPS} {b : ℤ} (h : m.position O b = .ok m') (hb : b.toNat = m.pos) :
    m' = m := by
  unfold MPS.position at h
  split_ifs at h
  simp only [hb, if_true, Except.ok.injEq] at h
  exact h.symm

theorem canonical_position {O : LinAlg} (hO : O.Spec) {m m' : MPS} {l r : ℕ} {b : ℤ} (hw : m.WF l r)
    (hs : m.sth < 1e-15) (hc : m.Canonical) (h : m.position O b = .ok m') : m'.Canonical := by
  obtain ⟨-, -, hM⟩ := position_moved hO (effSth_default hs) hw h
  refine canonical_moved hM hc fun hb => ?_
  rw [position_same h hb]; exact hc.norm

/-- The expectation value only depends on the amplitudes. -/
theorem expect_congr {m m' : MPS} (hd : m'.ds = m.ds) (ha : ∀ s, Cfg m.tensors s → m'.amp s 0 0 = m.amp s 0 0)
    (ops : List (Mat ℂ)) : m'.expect ops = m.expect ops := by
  unfold MPS.expect
  rw [hd]
  apply sumCfg_congr; intro s hs
  apply sumCfg_congr; intro s' hs'
  rw [ha s (cfg_iff_map.mpr hs), ha s' (cfg_iff_map.mpr hs')]

theorem expect_of_chain {m : MPS} {ts : List (Ten ℂ)} {c : ℂ} (hd : ts.map Ten.d = m.ds)
    (ha : ∀ s, Cfg m.tensors s → m.amp s 0 0 = c * chain ts s 0 0) (ops : List (Mat ℂ)) :
    m.expect ops = c * star c * sandwich ts ops ts := by
  unfold MPS.expect sandwich
  rw [hd, ← sumCfg_mul]
  apply sumCfg_congr; intro s hs
  rw [← sumCfg_mul]
  apply sumCfg_congr; intro s' hs'
  rw [ha s (cfg_iff_map.mpr hs), ha s' (cfg_iff_map.mpr hs'), star_mul']
  ring

theorem full_one_eye (As : List (Ten ℂ)) (ops : List (Mat ℂ)) (Bs : List (Ten ℂ)) :
    fullContr oneEnv As (ops.map Mat.mpo) Bs (eyeEnv 1) = sandwich As ops Bs := by
  simp [fullContr, sandwich, oneEnv, eyeEnv, mchain_ops]

theorem fits_id (ts : List (Ten ℂ)) (m : ℕ) : Fits ts (ts.map fun t => idMpo ℂ m t.d) ts := by
  induction ts with
  | nil => trivial
  | cons t ts ih => exact ⟨rfl, rfl, ih⟩

theorem mlinked_id (ts : List (Ten ℂ)) (m : ℕ) : MLinked m (ts.map fun t => idMpo ℂ m t.d) m := by
  induction ts with
  | nil => rfl
  | cons t ts ih => exact ⟨rfl, ih⟩

theorem isR_rightOrth {n r : ℕ} {ts : List (Ten ℂ)} (hl : Linked n ts r) (ho : ∀ t ∈ ts, RightOrth t) :
    IsR (eyeEnv r) ts (ts.map fun t => idMpo ℂ 1 t.d) ts (eyeEnv n) := by
  refine ⟨hl, mlinked_id ts 1, hl, fits_id ts 1, ?_⟩
  intro i hi i' hi' b hb
  have h := contrR_id (eyeEnv r : Env ℂ) ts ts rfl i i' b hb
  simp only [eyeEnv] at h hi hi' hb ⊢
  rw [h]
  rw [← chain_rightOrth hl ho hi hi']
  apply sumCfg_congr; intro s _
  refine sum_congr rfl fun j hj => ?_
  have : ∀ j' ∈ range r, delta ℂ j j' * chain ts s i j * star (chain ts s i' j')
      = delta ℂ j j' * (chain ts s i j * star (chain ts s i' j')) := by intros; ring
  rw [sum_congr rfl this, sum_delta_left (mem_range.mp hj)]

theorem isL_leftOrth {l n : ℕ} {ts : List (Ten ℂ)} (hl : Linked l ts n) (ho : ∀ t ∈ ts, LeftOrth t) :
    IsL (eyeEnv l) ts (ts.map fun t => idMpo ℂ 1 t.d) ts (eyeEnv n) := by
  refine ⟨hl, mlinked_id ts 1, hl, fits_id ts 1, ?_⟩
  intro j hj j' hj' b hb
  have h := contrL_id (eyeEnv l : Env ℂ) ts ts rfl j j' b hb
  simp only [eyeEnv] at h hj hj' hb ⊢
  rw [h, delta_comm]
  rw [← chain_leftOrth hl ho hj' hj]
  apply sumCfg_congr; intro s _
  refine sum_congr rfl fun i hi => ?_
  have : ∀ i' ∈ range l, delta ℂ i i' * chain ts s i j * star (chain ts s i' j')
      = delta ℂ i i' * (star (chain ts s i' j') * chain ts s i j) := by intros; ring
  rw [sum_congr rfl this, sum_delta_left (mem_range.mp hi)]

theorem isL_one_of_eye {As Bs : List (Ten ℂ)} {Ws : List (Mpo ℂ)} {L : Env ℂ} (h : IsL (eyeEnv 1) As Ws Bs L) :
    IsL oneEnv As Ws Bs L := by
  refine ⟨h.u, h.m, h.w, h.fits, ?_⟩
  intro j hj j' hj' b hb
  rw [h.v j hj j' hj' b hb]
  simp [contrL, oneEnv, eyeEnv]

theorem isR_one_of_eye {As Bs : List (Ten ℂ)} {Ws : List (Mpo ℂ)} {L : Env ℂ} (h : IsR (eyeEnv 1) As Ws Bs L) :
    IsR oneEnv As Ws Bs L := by
  refine ⟨h.u, h.m, h.w, h.fits, ?_⟩
  intro j hj j' hj' b hb
  rw [h.v j hj j' hj' b hb]
  simp [contrR, oneEnv, eyeEnv]

theorem isL_eye_of_one {As Bs : List (Ten ℂ)} {Ws : List (Mpo ℂ)} {L : Env ℂ} (h : IsL oneEnv As Ws Bs L) :
    IsL (eyeEnv 1) As Ws Bs L := by
  refine ⟨h.u, h.m, h.w, h.fits, ?_⟩
  intro j hj j' hj' b hb
  rw [h.v j hj j' hj' b hb]
  simp [contrL, oneEnv, eyeEnv]

/-- The trace of a block is its pairing with the identity. -/
theorem pair_eye {L : Env ℂ} {n : ℕ} (h1 : L.u = n) (h2 : L.w = n) (h3 : L.m = 1) :
    L.pair (eyeEnv n) = L.trace := by
  unfold Env.pair Env.trace eyeEnv
  rw [h1, h2, h3, min_self]
  refine sum_congr rfl fun i hi => ?_
  simp only [sum_range_one]
  rw [sum_delta_right' (mem_range.mp hi)]

theorem eye_pair {R : Env ℂ} {n : ℕ} (h1 : R.u = n) (h2 : R.w = n) :
    (eyeEnv n : Env ℂ).pair R = R.trace := by
  unfold Env.pair Env.trace eyeEnv
  rw [h1, h2, min_self]
  refine sum_congr rfl fun i hi => ?_
  simp only [sum_range_one]
  rw [sum_delta_left (mem_range.mp hi)]

theorem ids_mpo (ts : List (Ten ℂ)) :
    (ts.map fun t => idMpo ℂ 1 t.d) = ((ts.map Ten.d).map (eyeK ℂ)).map Mat.mpo := by
  rw [List.map_map, List.map_map]; rfl

/-- A block `L` of a prefix whose trace is taken while the rest of the chain is right-orthonormal. -/
theorem trace_right {As Bs : List (Ten ℂ)} {os : List (Mat ℂ)} {L : Env ℂ} {r : ℕ}
    (hL : IsL oneEnv As (os.map Mat.mpo) As L) (hB : Linked L.u Bs r) (hr : r = 1)
    (ho : ∀ t ∈ Bs, RightOrth t) :
    L.trace = sandwich (As ++ Bs) (os ++ (Bs.map Ten.d).map (eyeK ℂ)) (As ++ Bs) := by
  subst hr
  have hu : L.w = L.u := by
    rw [← linked_rdim hL.w, ← linked_rdim hL.u]; rfl
  have hm : L.m = 1 := by
    have : ∀ (l : List (Mat ℂ)) (a : ℕ), MLinked 1 (l.map Mat.mpo) a → a = 1 := by
      intro l
      induction l with
      | nil => intro a h; exact h.symm
      | cons o l ih => intro a h; exact ih a h.2
    exact this os _ hL.m
  have hR := isR_rightOrth hB ho
  rw [← pair_eye rfl hu hm, pair_eq_full hL hR rfl hu hm, ids_mpo, ← List.map_append, full_one_eye]

/-- A block `R` of a suffix whose trace is taken while the rest of the chain is left-orthonormal. -/
theorem trace_left {As Bs : List (Ten ℂ)} {os : List (Mat ℂ)} {R : Env ℂ} {l : ℕ}
    (hR : IsR oneEnv Bs (os.map Mat.mpo) Bs R) (hA : Linked l As R.u) (hl : l = 1)
    (ho : ∀ t ∈ As, LeftOrth t) (hw : R.w = R.u) :
    R.trace = sandwich (As ++ Bs) ((As.map Ten.d).map (eyeK ℂ) ++ os) (As ++ Bs) := by
  subst hl
  have hm : R.m = 1 := by
    have : ∀ (l : List (Mat ℂ)) (a : ℕ), MLinked a (l.map Mat.mpo) 1 → a = 1 := by
      intro l
      induction l with
      | nil => intro a h; exact h
      | cons o l ih => intro a h; exact h.1.symm
    exact this os _ hR.m
  have hL := isL_one_of_eye (isL_leftOrth hA ho)
  rw [← eye_pair rfl hw, pair_eq_full hL hR rfl hw.symm hm.symm, ids_mpo, ← List.map_append, sandwich_eq_full]

theorem sandwich_rightOrth {ts : List (Ten ℂ)} (hl : Linked 1 ts 1) (ho : ∀ t ∈ ts, RightOrth t) :
    sandwich ts ((ts.map Ten.d).map (eyeK ℂ)) ts = 1 := by
  have h := trace_right (As := []) (os := []) (L := oneEnv) (isL_nil _) hl rfl ho
  simp only [List.nil_append] at h
  rw [← h]
  simp [Env.trace, oneEnv]

theorem sandwich_leftOrth {ts : List (Ten ℂ)} (hl : Linked 1 ts 1) (ho : ∀ t ∈ ts, LeftOrth t) :
    sandwich ts ((ts.map Ten.d).map (eyeK ℂ)) ts = 1 := by
  have h := trace_left (Bs := []) (os := []) (R := oneEnv) (isR_nil _) hl rfl ho rfl
  simp only [List.append_nil] at h
  rw [← h]
  simp [Env.trace, oneEnv]

theorem addLayerR_dims {E E1 : Env ℂ} {A B : Ten ℂ} {W : Mpo ℂ} (h : addLayerR E A W B = .ok E1) :
    E1.u = A.r ∧ E1.w = B.r ∧ E1.m = W.r ∧ E.u = A.l ∧ E.w = B.l ∧ E.m = W.l ∧ A.d = W.din ∧ W.dout = B.d := by
  unfold addLayerR at h
  split_ifs at h with hs
  simp only [Except.ok.injEq] at h
  subst h
  exact ⟨rfl, rfl, rfl, hs.1, hs.2.2.2.1, hs.2.1, hs.2.2.1, hs.2.2.2.2⟩

theorem addELayerR_dims {E E1 : Env ℂ} {A B : Ten ℂ} (h : addELayerR E A B = .ok E1) :
    E1.u = A.r ∧ E1.w = B.r ∧ E1.m = E.m ∧ E.u = A.l ∧ E.w = B.l ∧ A.d = B.d := by
  unfold addELayerR at h
  split_ifs at h with hs
  simp only [Except.ok.injEq] at h
  subst h
  exact ⟨rfl, rfl, rfl, hs.1, hs.2.1, hs.2.2⟩

theorem addELayerL_dims {E E1 : Env ℂ} {A B : Ten ℂ} (h : addELayerL E A B = .ok E1) :
    E1.u = A.l ∧ E1.w = B.l ∧ E1.m = E.m ∧ E.u = A.r ∧ E.w = B.r ∧ A.d = B.d := by
  unfold addELayerL at h
  split_ifs at h with hs
  simp only [Except.ok.injEq] at h
  subst h
  exact ⟨rfl, rfl, rfl, hs.1, hs.2.1, hs.2.2⟩

theorem set_length_append {α : Type*} (a b : List α) (k : ℕ) (x : α) :
    (a ++ b).set (a.length + k) x = a ++ b.set k x := by
  rw [List.set_append_right _ _ (by omega)]
  congr 2; omega

/-- Loop invariant of `measureLocal(...,'right')`. -/
theorem measRLoop_spec : ∀ (ts : List (Ten ℂ)) (ops : List (Mat ℂ)) (As : List (Ten ℂ)) (L0 : Env ℂ) (l : List ℂ),
    IsL oneEnv As (As.map fun t => idMpo ℂ 1 t.d) As L0 → L0.m = 1 → Linked L0.u ts 1 →
    (∀ t ∈ ts, RightOrth t) → ts.length = ops.length → measRLoop ts ops L0 = .ok l →
    l.length = ts.length ∧ ∀ k c op, l[k]? = some c → ops[k]? = some op →
      (∃ t, ts[k]? = some t ∧ t.d = op.r ∧ t.d = op.c) ∧
      c * sandwich (As ++ ts) (((As ++ ts).map Ten.d).map (eyeK ℂ)) (As ++ ts) =
        sandwich (As ++ ts) (siteOps ((As ++ ts).map Ten.d) (As.length + k) op) (As ++ ts) := by
  intro ts
  induction ts with
  | nil =>
    intro ops As L0 l _ _ _ _ hlen h
    cases ops with
    | cons o os => simp at hlen
    | nil => simp only [measRLoop, Except.ok.injEq] at h; subst h; simp
  | cons t ts ih =>
    intro ops As L0 l hL hm hl ho hlen h
    cases ops with
    | nil => simp at hlen
    | cons o os =>
      simp only [measRLoop] at h
      split at h
      · cases h
      rename_i Lm h1
      split at h
      · cases h
      rename_i L1 h2
      split_ifs at h with hz
      split at h
      · cases h
      rename_i l' h3
      simp only [Except.ok.injEq] at h
      subst h
      obtain ⟨g1, g2⟩ := isL_snocE hL h2
      rw [hm] at g2
      have d1 := addLayerR_dims h1
      have d2 := addELayerR_dims h2
      have hts : Linked t.r ts 1 := hl.2
      have hL1 : IsL oneEnv (As ++ [t]) ((As ++ [t]).map fun t => idMpo ℂ 1 t.d) (As ++ [t]) L1 := by
        rw [List.map_append]; exact g2
      have hor : ∀ t ∈ ts, RightOrth t := fun x hx => ho x (by simp [hx])
      obtain ⟨q1, q2⟩ := ih os (As ++ [t]) L1 l' hL1 (g1.trans hm) (by rw [d2.1]; exact hts) hor
        (by simpa using hlen) h3
      have eap : As ++ t :: ts = (As ++ [t]) ++ ts := by simp
      refine ⟨by simp [q1], ?_⟩
      intro k c op hk hop
      cases k with
      | zero =>
        simp only [List.getElem?_cons_zero, Option.some.injEq] at hk hop
        subst hk hop
        refine ⟨⟨t, rfl, d1.2.2.2.2.2.2.1, d1.2.2.2.2.2.2.2.symm⟩, ?_⟩
        have t1 := trace_right (As := As ++ [t]) (os := ((As ++ [t]).map Ten.d).map (eyeK ℂ)) (Bs := ts)
          (by rw [← ids_mpo]; exact hL1) (by rw [d2.1]; exact hts) rfl hor
        have hLm : IsL oneEnv (As ++ [t]) (((As.map Ten.d).map (eyeK ℂ) ++ [o]).map Mat.mpo) (As ++ [t]) Lm := by
          rw [List.map_append, ← ids_mpo]
          exact isL_snoc hL h1
        have t2 := trace_right (As := As ++ [t]) (Bs := ts) hLm (by rw [d1.1]; exact hts) rfl hor
        have e1 : ((As ++ [t]).map Ten.d).map (eyeK ℂ) ++ (ts.map Ten.d).map (eyeK ℂ)
            = ((As ++ t :: ts).map Ten.d).map (eyeK ℂ) := by simp
        have e2 : (As.map Ten.d).map (eyeK ℂ) ++ [o] ++ (ts.map Ten.d).map (eyeK ℂ)
            = siteOps ((As ++ t :: ts).map Ten.d) (As.length + 0) o := by
          unfold siteOps
          rw [List.map_append, List.map_append]
          have := set_length_append ((As.map Ten.d).map (eyeK ℂ)) (((t :: ts).map Ten.d).map (eyeK ℂ)) 0 o
          simp only [List.length_map] at this
          rw [this]; simp
        rw [e1, ← eap] at t1
        rw [e2, ← eap] at t2
        rw [← t1, ← t2, div_mul_cancel₀ _ hz]
      | succ k =>
        simp only [List.getElem?_cons_succ] at hk hop
        have := q2 k c op hk hop
        rw [← eap] at this
        refine ⟨?_, ?_⟩
        · simpa using this.1
        · rw [this.2]
          congr 2
          simp only [List.length_append, List.length_cons, List.length_nil]; omega

theorem localContr_trace {t : Ten ℂ} {op : Mat ℂ} {c : ℂ} (h : localContr t op = .ok c) :
    ∃ L, addLayerR (eyeEnv t.l) t op.mpo t = .ok L ∧ L.u = t.r ∧ L.w = t.r ∧ L.trace = c := by
  unfold localContr at h
  split_ifs at h with hs
  simp only [Except.ok.injEq] at h
  unfold addLayerR
  rw [if_pos ⟨rfl, rfl, hs.1.symm, rfl, hs.2⟩]
  refine ⟨_, rfl, rfl, rfl, ?_⟩
  subst h
  simp only [Env.trace, min_self, eyeEnv, Mat.mpo, sum_range_one, delta_self, one_mul]
  rw [sum_comm]
  refine sum_congr rfl fun i hi => sum_congr rfl fun j _ => ?_
  have : ∀ i' ∈ range t.l, ∑ s ∈ range t.d, ∑ s' ∈ range t.d,
      delta ℂ i i' * t.v i j s * op.v s s' * star (t.v i' j s')
      = delta ℂ i i' * ∑ s ∈ range t.d, ∑ s' ∈ range t.d, t.v i j s * op.v s s' * star (t.v i' j s') := by
    intro i' _
    simp only [mul_sum]
    refine sum_congr rfl fun s _ => sum_congr rfl fun s' _ => ?_
    ring
  rw [sum_congr rfl this, sum_delta_left (mem_range.mp hi)]
  refine sum_congr rfl fun s _ => sum_congr rfl fun s' _ => ?_
  ring

/-- amplitudes of an object whose centre matrix is `1×1` at an end of the chain. -/
theorem amp_end {m : MPS} (hw : m.WF 1 1) (he : m.pos = 0 ∧ m.mat.c = 1 ∨ m.pos = m.N ∧ m.mat.r = 1) :
    Linked 1 m.tensors 1 ∧ m.mat.r = 1 ∧ m.mat.c = 1 ∧
    ∀ s, s.length = m.tensors.length → m.amp s 0 0 = m.Z * m.mat.v 0 0 * chain m.tensors s 0 0 := by
  have hL := hw.left
  have hR := hw.right
  rcases he with ⟨h1, h2⟩ | ⟨h1, h2⟩
  · rw [h1, List.take_zero] at hL
    rw [h1, List.drop_zero, h2] at hR
    have h3 : m.mat.r = 1 := hL.symm
    refine ⟨hR, h3, h2, fun s hs => ?_⟩
    unfold MPS.amp
    rw [h3, h2, h1]
    simp only [sum_range_one, List.take_zero, List.drop_zero, chain, delta_self]
    ring
  · rw [h1, ← hw.len, List.take_length] at hL
    rw [h1, ← hw.len, List.drop_length] at hR
    have h3 : m.mat.c = 1 := hR
    rw [h2] at hL
    refine ⟨hL, h2, h3, fun s hs => ?_⟩
    unfold MPS.amp
    rw [h3, h2, h1, ← hw.len, List.take_length, List.drop_length, List.take_of_length_le (by omega),
      List.drop_eq_nil_of_le (by omega)]
    simp only [sum_range_one, chain, delta_self]
    ring

theorem normF_one_by_one {M : Mat ℂ} (hr : M.r = 1) (hc : M.c = 1) (h : normF M = 1) :
    M.v 0 0 * star (M.v 0 0) = 1 := by
  have := normF_sq M
  rw [h, hr, hc] at this
  simp only [sum_range_one] at this
  have h2 : M.v 0 0 * star (M.v 0 0) = ((Complex.normSq (M.v 0 0) : ℝ) : ℂ) := by
    rw [mul_comm, Complex.normSq_eq_conj_mul_self]; rfl
  rw [h2, ← this]; simp

end

end PyTeN
