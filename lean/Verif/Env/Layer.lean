import Verif.Chain
import Mathlib.Algebra.Star.BigOperators
import Mathlib.Algebra.BigOperators.Ring.Finset

/-! # Environments: `addLayer`, `addELayer`, `getL`, `getR` and the effective Hamiltonian -/

namespace PyTeN
open Finset

section
variable {K : Type*} [CommSemiring K] [StarRing K]

/-! ## Model -/

/-- `addLayer(E,A,mpo,B,direction>0)`, lib/mpslib/mpsfunctions.py:916-931.  `tensordot` raises
ValueError when contracted dimensions differ. -/
def addLayerR (E : Env K) (A : Ten K) (W : Mpo K) (B : Ten K) : Res (Env K) :=
  if E.u = A.l ∧ E.m = W.l ∧ A.d = W.din ∧ E.w = B.l ∧ W.dout = B.d then
    .ok ⟨A.r, B.r, W.r, fun j j' b' =>
      ∑ i ∈ range E.u, ∑ i' ∈ range E.w, ∑ b ∈ range E.m, ∑ s ∈ range A.d, ∑ s' ∈ range B.d,
        E.v i i' b * A.v i j s * W.v b b' s s' * star (B.v i' j' s')⟩
  else .error .value

/-- `addLayer(E,A,mpo,B,direction<0)`, lib/mpslib/mpsfunctions.py:932-933. -/
def addLayerL (E : Env K) (A : Ten K) (W : Mpo K) (B : Ten K) : Res (Env K) :=
  if E.u = A.r ∧ E.m = W.r ∧ A.d = W.din ∧ E.w = B.r ∧ W.dout = B.d then
    .ok ⟨A.l, B.l, W.l, fun i i' b =>
      ∑ j ∈ range E.u, ∑ j' ∈ range E.w, ∑ b' ∈ range E.m, ∑ s ∈ range A.d, ∑ s' ∈ range B.d,
        E.v j j' b' * A.v i j s * W.v b b' s s' * star (B.v i' j' s')⟩
  else .error .value

/-- `addELayer(E,A,B,direction>0)`, lib/mpslib/mpsfunctions.py:935-949. -/
def addELayerR (E : Env K) (A B : Ten K) : Res (Env K) :=
  if E.u = A.l ∧ E.w = B.l ∧ A.d = B.d then
    .ok ⟨A.r, B.r, E.m, fun j j' b =>
      ∑ i ∈ range E.u, ∑ i' ∈ range E.w, ∑ s ∈ range A.d,
        E.v i i' b * A.v i j s * star (B.v i' j' s)⟩
  else .error .value

/-- `addELayer(E,A,B,direction<0)`, lib/mpslib/mpsfunctions.py:950-951. -/
def addELayerL (E : Env K) (A B : Ten K) : Res (Env K) :=
  if E.u = A.r ∧ E.w = B.r ∧ A.d = B.d then
    .ok ⟨A.l, B.l, E.m, fun i i' b =>
      ∑ j ∈ range E.u, ∑ j' ∈ range E.w, ∑ s ∈ range A.d,
        E.v j j' b * A.v i j s * star (B.v i' j' s)⟩
  else .error .value

/-- The loop `for site in range(site1,site2+1): L=addLayer(L,mps1[site],mpo[site],mps2[site],1)` of
`contractMPO` (lib/mpslib/mpsfunctions.py:284-303) and of `getL` (1049-1063), keeping every
intermediate block; the lists are the tensors of the sites in processing order. -/
def blocksR (E : Env K) : List (Ten K) → List (Mpo K) → List (Ten K) → Res (List (Env K))
  | [], _, _ => .ok []
  | A :: As, W :: Ws, B :: Bs =>
    match addLayerR E A W B with
    | .error e => .error e
    | .ok E' =>
      match blocksR E' As Ws Bs with
      | .error e => .error e
      | .ok l => .ok (E' :: l)
  | _, _, _ => .error .index

/-- The same for `direction<0`; the lists are in processing order, from right to left
(lib/mpslib/mpsfunctions.py:304-308 and `getR` 1034-1047). -/
def blocksL (E : Env K) : List (Ten K) → List (Mpo K) → List (Ten K) → Res (List (Env K))
  | [], _, _ => .ok []
  | A :: As, W :: Ws, B :: Bs =>
    match addLayerL E A W B with
    | .error e => .error e
    | .ok E' =>
      match blocksL E' As Ws Bs with
      | .error e => .error e
      | .ok l => .ok (E' :: l)
  | _, _, _ => .error .index

/-- `getL(mps,mpo,leftboundary)`, lib/mpslib/mpsfunctions.py:1049-1063. -/
def getL (mps : List (Ten K)) (mpo : List (Mpo K)) (lb : Env K) : Res (List (Env K)) :=
  if mps = [] then .error .index else blocksR lb mps mpo mps

/-- `getR(mps,mpo,rightboundary)`, lib/mpslib/mpsfunctions.py:1034-1047: the first layer uses
`mpo[-1]`, the others `mpo[N-1-n]`.  (For an MPO shorter than `N-1` the IndexError is reported before
a possible shape error.) -/
def getR (mps : List (Ten K)) (mpo : List (Mpo K)) (rb : Env K) : Res (List (Env K)) :=
  if mps = [] then .error .index
  else match mpo.getLast? with
    | none => .error .index
    | some w =>
      if mpo.length < mps.length - 1 then .error .index
      else blocksL rb mps.reverse (w :: (mpo.take (mps.length - 1)).reverse) mps.reverse

/-- `contractionH(L,mps,mpo,R)`, lib/mpslib/mpsfunctions.py:269-282, and `HAproductSingleSiteMPS`
(976-980); `HAproductSingleSite` (959-968) is the same with reshapes.  Shape `(L.w,R.w,dout)`. -/
def contractionH (L : Env K) (A : Ten K) (W : Mpo K) (R : Env K) : Res (Ten K) :=
  if L.u = A.l ∧ L.m = W.l ∧ A.d = W.din ∧ A.r = R.u ∧ W.r = R.m then
    .ok ⟨L.w, R.w, W.dout, fun i' j' s' =>
      ∑ i ∈ range L.u, ∑ b ∈ range L.m, ∑ s ∈ range A.d, ∑ j ∈ range R.u, ∑ b' ∈ range R.m,
        L.v i i' b * A.v i j s * W.v b b' s s' * R.v j j' b'⟩
  else .error .value

/-- `HAproductBondMatrix(L,R,matrix)`, lib/mpslib/mpsfunctions.py:1026-1029. -/
def bondH (L R : Env K) (M : Mat K) : Res (Mat K) :=
  if L.u = M.r ∧ M.c = R.u ∧ L.m = R.m then
    .ok ⟨L.w, R.w, fun i' j' =>
      ∑ i ∈ range L.u, ∑ b ∈ range L.m, ∑ j ∈ range R.u, L.v i i' b * M.v i j * R.v j j' b⟩
  else .error .value

/-! ## Specification -/

/-- Spec: MPO element between configurations `s` (in) and `s'` (out) and open bonds `b`, `b'`. -/
def mchain : List (Mpo K) → List ℕ → List ℕ → ℕ → ℕ → K
  | [], [], [], b, b' => delta K b b'
  | W :: Ws, s :: ss, t :: ts, b, b' => ∑ c ∈ range W.r, W.v b c s t * mchain Ws ss ts c b'
  | _, _, _, _, _ => 0

/-- Spec: neighbouring MPO bonds match. -/
def MLinked : ℕ → List (Mpo K) → ℕ → Prop
  | l, [], r => l = r
  | l, W :: Ws, r => W.l = l ∧ MLinked W.r Ws r

/-- Spec: left boundary contracted with all configurations of the sites. -/
def contrL (E : Env K) (As : List (Ten K)) (Ws : List (Mpo K)) (Bs : List (Ten K)) (j j' b' : ℕ) : K :=
  sumCfg (As.map Ten.d) fun s => sumCfg (Bs.map Ten.d) fun s' =>
    ∑ i ∈ range E.u, ∑ i' ∈ range E.w, ∑ b ∈ range E.m,
      E.v i i' b * chain As s i j * mchain Ws s s' b b' * star (chain Bs s' i' j')

/-- Spec: right boundary contracted with all configurations of the sites. -/
def contrR (E : Env K) (As : List (Ten K)) (Ws : List (Mpo K)) (Bs : List (Ten K)) (i i' b : ℕ) : K :=
  sumCfg (As.map Ten.d) fun s => sumCfg (Bs.map Ten.d) fun s' =>
    ∑ j ∈ range E.u, ∑ j' ∈ range E.w, ∑ b' ∈ range E.m,
      E.v j j' b' * chain As s i j * mchain Ws s s' b b' * star (chain Bs s' i' j')

/-- Spec: the chains fit together layer by layer. -/
def Fits : List (Ten K) → List (Mpo K) → List (Ten K) → Prop
  | [], [], [] => True
  | A :: As, W :: Ws, B :: Bs => A.d = W.din ∧ W.dout = B.d ∧ Fits As Ws Bs
  | _, _, _ => False

/-! ## Lemmas -/

theorem star_chain (B : List (Ten K)) (s : List ℕ) (x i j : ℕ) (t : Ten K) :
    star (chain (t :: B) (x :: s) i j) = ∑ k ∈ range t.r, star (t.v i k x) * star (chain B s k j) := by
  simp only [chain, star_sum, star_mul']

omit [StarRing K] in
theorem sumCfg_pull (ds es : List ℕ) (n n' : ℕ) (F : ℕ → ℕ → List ℕ → List ℕ → K) :
    ∑ x ∈ range n, sumCfg ds (fun s => ∑ x' ∈ range n', sumCfg es (fun s' => F x x' s s'))
      = sumCfg ds (fun s => sumCfg es (fun s' => ∑ x ∈ range n, ∑ x' ∈ range n', F x x' s s')) := by
  simp only [sumCfg_sum]

omit [StarRing K] in
theorem prod3 {a b c : ℕ} (e : K) (f g h : ℕ → K) :
    e * (∑ q ∈ range a, f q) * (∑ γ ∈ range c, g γ) * (∑ q' ∈ range b, h q')
      = ∑ q ∈ range a, ∑ q' ∈ range b, ∑ γ ∈ range c, e * f q * g γ * h q' := by
  simp only [← mul_sum, ← sum_mul]

omit [StarRing K] in
/-- reordering used by one layer -/
theorem layer_sum {a b c d e f g h : ℕ} (F : ℕ → ℕ → ℕ → ℕ → ℕ → ℕ → ℕ → ℕ → K) :
    ∑ x ∈ range d, ∑ x' ∈ range e, ∑ i ∈ range a, ∑ i' ∈ range b, ∑ β ∈ range c,
        ∑ j ∈ range f, ∑ j' ∈ range g, ∑ γ ∈ range h, F x x' i i' β j j' γ
      = ∑ j ∈ range f, ∑ j' ∈ range g, ∑ γ ∈ range h, ∑ i ∈ range a, ∑ i' ∈ range b, ∑ β ∈ range c,
        ∑ x ∈ range d, ∑ x' ∈ range e, F x x' i i' β j j' γ := by
  have h1 := Finset.sum_comm (s := range d ×ˢ range e) (t := range a ×ˢ range b ×ˢ range c)
    (f := fun x i => ∑ j ∈ range f, ∑ j' ∈ range g, ∑ γ ∈ range h, F x.1 x.2 i.1 i.2.1 i.2.2 j j' γ)
  simp only [Finset.sum_product] at h1
  rw [h1]
  have h2 := Finset.sum_comm (s := range a ×ˢ range b ×ˢ range c ×ˢ range d ×ˢ range e)
    (t := range f ×ˢ range g ×ˢ range h)
    (f := fun i j => F i.2.2.2.1 i.2.2.2.2 i.1 i.2.1 i.2.2.1 j.1 j.2.1 j.2.2)
  simp only [Finset.sum_product] at h2
  exact h2

/-- One layer added on the left end of the left contraction. -/
theorem contrL_cons {E E1 : Env K} {A B : Ten K} {W : Mpo K} (h : addLayerR E A W B = .ok E1)
    (As : List (Ten K)) (Ws : List (Mpo K)) (Bs : List (Ten K)) (j j' b' : ℕ) :
    contrL E (A :: As) (W :: Ws) (B :: Bs) j j' b' = contrL E1 As Ws Bs j j' b' := by
  unfold addLayerR at h
  split_ifs at h with hs
  simp only [Except.ok.injEq] at h
  subst h
  unfold contrL
  simp only [List.map_cons, sumCfg]
  rw [sumCfg_pull]
  apply sumCfg_congr; intro s _
  apply sumCfg_congr; intro s' _
  have e1 : ∀ x x' i i' b, E.v i i' b * chain (A :: As) (x :: s) i j * mchain (W :: Ws) (x :: s) (x' :: s') b b'
      * star (chain (B :: Bs) (x' :: s') i' j')
      = ∑ q ∈ range A.r, ∑ q' ∈ range B.r, ∑ c ∈ range W.r,
        (E.v i i' b * A.v i q x * W.v b c x x' * star (B.v i' q' x')) *
          (chain As s q j * mchain Ws s s' c b' * star (chain Bs s' q' j')) := by
    intro x x' i i' b
    rw [star_chain]
    simp only [chain, mchain]
    rw [prod3]
    apply sum_congr rfl; intro q _
    apply sum_congr rfl; intro q' _
    apply sum_congr rfl; intro c _
    ring
  simp only [e1]
  rw [layer_sum]
  apply sum_congr rfl; intro q _
  apply sum_congr rfl; intro q' _
  apply sum_congr rfl; intro c _
  simp only [sum_mul]
  simp only [mul_assoc]

theorem contrL_nil (E : Env K) {j j' b' : ℕ} (hj : j < E.u) (hj' : j' < E.w) (hb : b' < E.m) :
    contrL E [] [] [] j j' b' = E.v j j' b' := by
  have hst : ∀ i' : ℕ, star (delta K i' j') = delta K i' j' := by
    intro i'; unfold delta; split_ifs <;> simp
  simp only [contrL, List.map_nil, sumCfg, chain, mchain, hst]
  have e : ∀ i i' b, E.v i i' b * delta K i j * delta K b b' * delta K i' j'
      = delta K i j * (delta K i' j' * (delta K b b' * E.v i i' b)) := by intros; ring
  simp only [e, ← mul_sum]
  rw [sum_delta_left' hj, sum_delta_left' hj', sum_delta_left' hb]

theorem contrR_nil (E : Env K) {i i' b : ℕ} (hj : i < E.u) (hj' : i' < E.w) (hb : b < E.m) :
    contrR E [] [] [] i i' b = E.v i i' b := by
  have hst : ∀ j' : ℕ, star (delta K i' j') = delta K i' j' := by
    intro j'; unfold delta; split_ifs <;> simp
  simp only [contrR, List.map_nil, sumCfg, chain, mchain, hst]
  have e : ∀ j j' b', E.v j j' b' * delta K i j * delta K b b' * delta K i' j'
      = delta K i j * (delta K i' j' * (delta K b b' * E.v j j' b')) := by intros; ring
  simp only [e, ← mul_sum]
  rw [sum_delta_left hj, sum_delta_left hj', sum_delta_left hb]

omit [StarRing K] in
/-- reordering used by one layer of the right contraction -/
theorem layer_sum' {a b c d e f g h : ℕ} (F : ℕ → ℕ → ℕ → ℕ → ℕ → ℕ → ℕ → ℕ → K) :
    ∑ x ∈ range d, ∑ x' ∈ range e, ∑ i ∈ range a, ∑ i' ∈ range b, ∑ β ∈ range c,
        ∑ j ∈ range f, ∑ j' ∈ range g, ∑ γ ∈ range h, F x x' i i' β j j' γ
      = ∑ j ∈ range f, ∑ j' ∈ range g, ∑ γ ∈ range h, ∑ x ∈ range d, ∑ x' ∈ range e,
        ∑ i ∈ range a, ∑ i' ∈ range b, ∑ β ∈ range c, F x x' i i' β j j' γ := by
  have h2 := Finset.sum_comm (s := range d ×ˢ range e ×ˢ range a ×ˢ range b ×ˢ range c)
    (t := range f ×ˢ range g ×ˢ range h)
    (f := fun i j => F i.1 i.2.1 i.2.2.1 i.2.2.2.1 i.2.2.2.2 j.1 j.2.1 j.2.2)
  simp only [Finset.sum_product] at h2
  exact h2

theorem contrR_cons (E : Env K) (A B : Ten K) (W : Mpo K) (As : List (Ten K)) (Ws : List (Mpo K))
    (Bs : List (Ten K)) (i i' b : ℕ) :
    contrR E (A :: As) (W :: Ws) (B :: Bs) i i' b
      = ∑ q ∈ range A.r, ∑ q' ∈ range B.r, ∑ c ∈ range W.r, ∑ x ∈ range A.d, ∑ x' ∈ range B.d,
        contrR E As Ws Bs q q' c * A.v i q x * W.v b c x x' * star (B.v i' q' x') := by
  unfold contrR
  simp only [List.map_cons, sumCfg]
  rw [sumCfg_pull]
  have e1 : ∀ s s' x x' j j' b', E.v j j' b' * chain (A :: As) (x :: s) i j *
      mchain (W :: Ws) (x :: s) (x' :: s') b b' * star (chain (B :: Bs) (x' :: s') i' j')
      = ∑ q ∈ range A.r, ∑ q' ∈ range B.r, ∑ c ∈ range W.r,
        (E.v j j' b' * chain As s q j * mchain Ws s s' c b' * star (chain Bs s' q' j')) *
          (A.v i q x * W.v b c x x' * star (B.v i' q' x')) := by
    intro s s' x x' j j' b'
    rw [star_chain]
    simp only [chain, mchain]
    rw [prod3]
    apply sum_congr rfl; intro q _
    apply sum_congr rfl; intro q' _
    apply sum_congr rfl; intro c _
    ring
  simp only [e1]
  have e2 : ∀ s s', (∑ x ∈ range A.d, ∑ x' ∈ range B.d, ∑ j ∈ range E.u, ∑ j' ∈ range E.w, ∑ b' ∈ range E.m,
      ∑ q ∈ range A.r, ∑ q' ∈ range B.r, ∑ c ∈ range W.r,
        (E.v j j' b' * chain As s q j * mchain Ws s s' c b' * star (chain Bs s' q' j')) *
          (A.v i q x * W.v b c x x' * star (B.v i' q' x')))
      = ∑ q ∈ range A.r, ∑ q' ∈ range B.r, ∑ c ∈ range W.r, ∑ x ∈ range A.d, ∑ x' ∈ range B.d,
        (∑ j ∈ range E.u, ∑ j' ∈ range E.w, ∑ b' ∈ range E.m,
          E.v j j' b' * chain As s q j * mchain Ws s s' c b' * star (chain Bs s' q' j')) *
          (A.v i q x * W.v b c x x' * star (B.v i' q' x')) := by
    intro s s'
    rw [layer_sum']
    simp only [sum_mul]
  simp only [e2, sumCfg_sum, sumCfg_mul_right]
  simp only [mul_assoc]

theorem contrR_append {E F : Env K} {X X' Y Y' : List (Ten K)} {V U : List (Mpo K)}
    (hF : ∀ q < F.u, ∀ q' < F.w, ∀ c < F.m, F.v q q' c = contrR E Y U Y' q q' c) :
    ∀ {l l' m : ℕ}, Linked l X F.u → Linked l' X' F.w → MLinked m V F.m →
      X.length = V.length → V.length = X'.length → ∀ {i i' b : ℕ}, i < l → i' < l' → b < m →
    contrR E (X ++ Y) (V ++ U) (X' ++ Y') i i' b = contrR F X V X' i i' b := by
  induction X generalizing V X' with
  | nil =>
    intro l l' m h1 h2 h3 h4 h5 i i' b hi hi' hb
    have hV : V = [] := List.length_eq_zero_iff.mp h4.symm
    subst hV
    have hX' : X' = [] := List.length_eq_zero_iff.mp h5.symm
    subst hX'
    simp only [Linked, MLinked] at h1 h2 h3
    subst h1 h2 h3
    rw [contrR_nil F hi hi' hb, hF i hi i' hi' b hb]; rfl
  | cons A X ih =>
    intro l l' m h1 h2 h3 h4 h5 i i' b hi hi' hb
    cases V with
    | nil => simp at h4
    | cons W V =>
      cases X' with
      | nil => simp at h5
      | cons B X' =>
        simp only [List.cons_append]
        rw [contrR_cons, contrR_cons]
        apply sum_congr rfl; intro q hq
        apply sum_congr rfl; intro q' hq'
        apply sum_congr rfl; intro c hc
        rw [ih h1.2 h2.2 h3.2 (by simpa using h4) (by simpa using h5) (mem_range.mp hq) (mem_range.mp hq')
          (mem_range.mp hc)]

theorem addLayerL_v {E E1 : Env K} {A B : Ten K} {W : Mpo K} (h : addLayerL E A W B = .ok E1) :
    E1.u = A.l ∧ E1.w = B.l ∧ E1.m = W.l ∧ E.u = A.r ∧ E.w = B.r ∧ E.m = W.r ∧ A.d = W.din ∧ W.dout = B.d ∧
      ∀ i i' b, E1.v i i' b = contrR E [A] [W] [B] i i' b := by
  unfold addLayerL at h
  split_ifs at h with hs
  simp only [Except.ok.injEq] at h
  subst h
  refine ⟨rfl, rfl, rfl, hs.1, hs.2.2.2.1, hs.2.1, hs.2.2.1, hs.2.2.2.2, ?_⟩
  intro i i' b
  rw [contrR_cons]
  simp only
  rw [hs.1, hs.2.2.2.1, hs.2.1]
  apply sum_congr rfl; intro q hq
  apply sum_congr rfl; intro q' hq'
  apply sum_congr rfl; intro c hc
  rw [contrR_nil E (by rw [hs.1]; exact mem_range.mp hq) (by rw [hs.2.2.2.1]; exact mem_range.mp hq')
    (by rw [hs.2.1]; exact mem_range.mp hc)]

omit [CommSemiring K] [StarRing K] in
theorem mlinked_append {l r : ℕ} {A B : List (Mpo K)} :
    MLinked l (A ++ B) r ↔ ∃ m, MLinked l A m ∧ MLinked m B r := by
  induction A generalizing l with
  | nil => simp [MLinked]
  | cons t A ih =>
    simp only [List.cons_append, MLinked, ih]
    constructor
    · rintro ⟨h, m, h1, h2⟩; exact ⟨m, ⟨h, h1⟩, h2⟩
    · rintro ⟨m, ⟨h, h1⟩, h2⟩; exact ⟨h, m, h1, h2⟩

omit [CommSemiring K] [StarRing K] in
theorem fits_length {As Bs : List (Ten K)} {Ws : List (Mpo K)} (h : Fits As Ws Bs) :
    As.length = Ws.length ∧ Ws.length = Bs.length := by
  induction As generalizing Ws Bs with
  | nil => cases Ws <;> cases Bs <;> simp_all [Fits]
  | cons A As ih =>
    cases Ws with
    | nil => simp [Fits] at h
    | cons W Ws =>
      cases Bs with
      | nil => simp [Fits] at h
      | cons B Bs => have := ih h.2.2; simp [this.1, this.2]

omit [CommSemiring K] [StarRing K] in
theorem fits_append {As Bs As' Bs' : List (Ten K)} {Ws Ws' : List (Mpo K)} (h : Fits As Ws Bs)
    (h' : Fits As' Ws' Bs') : Fits (As ++ As') (Ws ++ Ws') (Bs ++ Bs') := by
  induction As generalizing Ws Bs with
  | nil => cases Ws <;> cases Bs <;> simp_all [Fits]
  | cons A As ih =>
    cases Ws with
    | nil => simp [Fits] at h
    | cons W Ws =>
      cases Bs with
      | nil => simp [Fits] at h
      | cons B Bs => exact ⟨h.1, h.2.1, ih h.2.2⟩

/-- What a block is: the contraction of the sites in the lists, with consistent shapes. -/
structure IsL (E : Env K) (As : List (Ten K)) (Ws : List (Mpo K)) (Bs : List (Ten K)) (E' : Env K) : Prop where
  u : Linked E.u As E'.u
  m : MLinked E.m Ws E'.m
  w : Linked E.w Bs E'.w
  fits : Fits As Ws Bs
  v : ∀ j < E'.u, ∀ j' < E'.w, ∀ b < E'.m, E'.v j j' b = contrL E As Ws Bs j j' b

/-- The same for right environments. -/
structure IsR (E : Env K) (As : List (Ten K)) (Ws : List (Mpo K)) (Bs : List (Ten K)) (E' : Env K) : Prop where
  u : Linked E'.u As E.u
  m : MLinked E'.m Ws E.m
  w : Linked E'.w Bs E.w
  fits : Fits As Ws Bs
  v : ∀ j < E'.u, ∀ j' < E'.w, ∀ b < E'.m, E'.v j j' b = contrR E As Ws Bs j j' b

theorem isL_nil (E : Env K) : IsL E [] [] [] E :=
  ⟨rfl, rfl, rfl, trivial, fun _ hj _ hj' _ hb => (contrL_nil E hj hj' hb).symm⟩

theorem isR_nil (E : Env K) : IsR E [] [] [] E :=
  ⟨rfl, rfl, rfl, trivial, fun _ hj _ hj' _ hb => (contrR_nil E hj hj' hb).symm⟩

theorem isL_cons {E E1 E' : Env K} {A B : Ten K} {W : Mpo K} {As Bs : List (Ten K)} {Ws : List (Mpo K)}
    (h : addLayerR E A W B = .ok E1) (hL : IsL E1 As Ws Bs E') : IsL E (A :: As) (W :: Ws) (B :: Bs) E' := by
  have h0 := h
  unfold addLayerR at h
  split_ifs at h with hs
  simp only [Except.ok.injEq] at h
  have e1 : E1.u = A.r := by rw [← h]
  have e2 : E1.w = B.r := by rw [← h]
  have e3 : E1.m = W.r := by rw [← h]
  refine ⟨⟨hs.1.symm, e1 ▸ hL.u⟩, ⟨hs.2.1.symm, e3 ▸ hL.m⟩, ⟨hs.2.2.2.1.symm, e2 ▸ hL.w⟩,
    ⟨hs.2.2.1, hs.2.2.2.2, hL.fits⟩, ?_⟩
  intro j hj j' hj' b hb
  rw [contrL_cons h0, hL.v j hj j' hj' b hb]

theorem isR_snoc {E E1 E' : Env K} {A B : Ten K} {W : Mpo K} {As Bs : List (Ten K)} {Ws : List (Mpo K)}
    (h : addLayerL E A W B = .ok E1) (hL : IsR E1 As Ws Bs E') :
    IsR E (As ++ [A]) (Ws ++ [W]) (Bs ++ [B]) E' := by
  obtain ⟨e1, e2, e3, e4, e5, e6, e7, e8, e9⟩ := addLayerL_v h
  refine ⟨?_, ?_, ?_, fits_append hL.fits ⟨e7, e8, trivial⟩, ?_⟩
  · rw [linked_append]; exact ⟨_, hL.u, e1.symm, e4.symm⟩
  · rw [mlinked_append]; exact ⟨_, hL.m, e3.symm, e6.symm⟩
  · rw [linked_append]; exact ⟨_, hL.w, e2.symm, e5.symm⟩
  · intro j hj j' hj' b hb
    have hl := fits_length hL.fits
    rw [hL.v j hj j' hj' b hb]
    exact (contrR_append (fun q _ q' _ c _ => e9 q q' c) hL.u hL.w hL.m hl.1 hl.2 hj hj' hb).symm

theorem blocksR_spec (E : Env K) (As : List (Ten K)) (Ws : List (Mpo K)) (Bs : List (Ten K)) (l : List (Env K))
    (h : blocksR E As Ws Bs = .ok l) :
    l.length = As.length ∧ As.length ≤ Ws.length ∧ As.length ≤ Bs.length ∧
      ∀ n E', l[n]? = some E' → IsL E (As.take (n + 1)) (Ws.take (n + 1)) (Bs.take (n + 1)) E' := by
  induction As generalizing E Ws Bs l with
  | nil => simp only [blocksR, Except.ok.injEq] at h; subst h; simp
  | cons A As ih =>
    cases Ws with
    | nil => simp [blocksR] at h
    | cons W Ws =>
      cases Bs with
      | nil => simp [blocksR] at h
      | cons B Bs =>
        simp only [blocksR] at h
        split at h
        · cases h
        rename_i E1 h1
        split at h
        · cases h
        rename_i l1 h2
        simp only [Except.ok.injEq] at h
        subst h
        obtain ⟨a1, a2, a3, a4⟩ := ih E1 Ws Bs l1 h2
        refine ⟨by simp [a1], by simpa using a2, by simpa using a3, ?_⟩
        intro n E' hn
        cases n with
        | zero =>
          simp only [List.getElem?_cons_zero, Option.some.injEq] at hn
          subst hn
          simpa using isL_cons h1 (isL_nil E1)
        | succ n =>
          simp only [List.getElem?_cons_succ] at hn
          simpa using isL_cons h1 (a4 n E' hn)

theorem blocksL_spec (E : Env K) (As : List (Ten K)) (Ws : List (Mpo K)) (Bs : List (Ten K)) (l : List (Env K))
    (h : blocksL E As Ws Bs = .ok l) :
    l.length = As.length ∧ As.length ≤ Ws.length ∧ As.length ≤ Bs.length ∧
      ∀ n E', l[n]? = some E' →
        IsR E (As.take (n + 1)).reverse (Ws.take (n + 1)).reverse (Bs.take (n + 1)).reverse E' := by
  induction As generalizing E Ws Bs l with
  | nil => simp only [blocksL, Except.ok.injEq] at h; subst h; simp
  | cons A As ih =>
    cases Ws with
    | nil => simp [blocksL] at h
    | cons W Ws =>
      cases Bs with
      | nil => simp [blocksL] at h
      | cons B Bs =>
        simp only [blocksL] at h
        split at h
        · cases h
        rename_i E1 h1
        split at h
        · cases h
        rename_i l1 h2
        simp only [Except.ok.injEq] at h
        subst h
        obtain ⟨a1, a2, a3, a4⟩ := ih E1 Ws Bs l1 h2
        refine ⟨by simp [a1], by simpa using a2, by simpa using a3, ?_⟩
        intro n E' hn
        cases n with
        | zero =>
          simp only [List.getElem?_cons_zero, Option.some.injEq] at hn
          subst hn
          simpa using isR_snoc h1 (isR_nil E1)
        | succ n =>
          simp only [List.getElem?_cons_succ] at hn
          simpa using isR_snoc h1 (a4 n E' hn)

/-- Spec: the full network: both boundaries, all bonds, all configurations. -/
def fullContr (E : Env K) (As : List (Ten K)) (Ws : List (Mpo K)) (Bs : List (Ten K)) (F : Env K) : K :=
  sumCfg (As.map Ten.d) fun s => sumCfg (Bs.map Ten.d) fun s' =>
    ∑ i ∈ range E.u, ∑ i' ∈ range E.w, ∑ b ∈ range E.m,
    ∑ j ∈ range F.u, ∑ j' ∈ range F.w, ∑ b' ∈ range F.m,
      E.v i i' b * chain As s i j * mchain Ws s s' b b' * star (chain Bs s' i' j') * F.v j j' b'

/-- Spec: scalar product of a left and a right environment. -/
def Env.pair (L R : Env K) : K :=
  ∑ j ∈ range L.u, ∑ j' ∈ range L.w, ∑ b ∈ range L.m, L.v j j' b * R.v j j' b

theorem fullContr_eq_right (E : Env K) (As : List (Ten K)) (Ws : List (Mpo K)) (Bs : List (Ten K)) (F : Env K) :
    fullContr E As Ws Bs F = ∑ i ∈ range E.u, ∑ i' ∈ range E.w, ∑ b ∈ range E.m,
      E.v i i' b * contrR F As Ws Bs i i' b := by
  unfold fullContr contrR
  simp only [← sumCfg_mul, ← sumCfg_sum]
  apply sumCfg_congr; intro s _
  apply sumCfg_congr; intro s' _
  simp only [mul_sum]
  refine sum_congr rfl fun i _ => sum_congr rfl fun i' _ => sum_congr rfl fun b _ => sum_congr rfl fun j _ =>
    sum_congr rfl fun j' _ => sum_congr rfl fun b' _ => ?_
  ring

theorem fullContr_eq_left (E : Env K) (As : List (Ten K)) (Ws : List (Mpo K)) (Bs : List (Ten K)) (F : Env K) :
    fullContr E As Ws Bs F = ∑ j ∈ range F.u, ∑ j' ∈ range F.w, ∑ b ∈ range F.m,
      contrL E As Ws Bs j j' b * F.v j j' b := by
  unfold fullContr contrL
  simp only [← sumCfg_mul_right, ← sumCfg_sum]
  apply sumCfg_congr; intro s _
  apply sumCfg_congr; intro s' _
  simp only [sum_mul]
  have h2 := Finset.sum_comm (s := range E.u ×ˢ range E.w ×ˢ range E.m)
    (t := range F.u ×ˢ range F.w ×ˢ range F.m)
    (f := fun i j => E.v i.1 i.2.1 i.2.2 * chain As s i.1 j.1 * mchain Ws s s' i.2.2 j.2.2 *
      star (chain Bs s' i.2.1 j.2.1) * F.v j.1 j.2.1 j.2.2)
  simp only [Finset.sum_product] at h2
  exact h2

/-- Left block and right block of a cut pair to the full network. -/
theorem pair_eq_full {E F L R : Env K} {As Bs As' Bs' : List (Ten K)} {Ws Ws' : List (Mpo K)}
    (hL : IsL E As Ws Bs L) (hR : IsR F As' Ws' Bs' R) (h1 : L.u = R.u) (h2 : L.w = R.w) (h3 : L.m = R.m) :
    L.pair R = fullContr E (As ++ As') (Ws ++ Ws') (Bs ++ Bs') F := by
  rw [fullContr_eq_right]
  have hl := fits_length hL.fits
  have e : ∀ i ∈ range E.u, ∀ i' ∈ range E.w, ∀ b ∈ range E.m,
      E.v i i' b * contrR F (As ++ As') (Ws ++ Ws') (Bs ++ Bs') i i' b
        = E.v i i' b * contrR R As Ws Bs i i' b := by
    intro i hi i' hi' b hb
    rw [contrR_append (fun q hq q' hq' c hc => hR.v q hq q' hq' c hc) (h1 ▸ hL.u) (h2 ▸ hL.w) (h3 ▸ hL.m)
      hl.1 hl.2 (mem_range.mp hi) (mem_range.mp hi') (mem_range.mp hb)]
  rw [sum_congr rfl fun i hi => sum_congr rfl fun i' hi' => sum_congr rfl fun b hb => e i hi i' hi' b hb]
  rw [← fullContr_eq_right, fullContr_eq_left]
  unfold Env.pair
  rw [h1, h2, h3]
  refine sum_congr rfl fun i hi => sum_congr rfl fun i' hi' => sum_congr rfl fun b hb => ?_
  rw [hL.v i (by rw [h1]; exact mem_range.mp hi) i' (by rw [h2]; exact mem_range.mp hi') b
    (by rw [h3]; exact mem_range.mp hb)]


theorem isR_cons {F R R1 : Env K} {A B : Ten K} {W : Mpo K} {As Bs : List (Ten K)} {Ws : List (Mpo K)}
    (hR : IsR F As Ws Bs R) (h : addLayerL R A W B = .ok R1) : IsR F (A :: As) (W :: Ws) (B :: Bs) R1 := by
  obtain ⟨e1, e2, e3, e4, e5, e6, e7, e8, e9⟩ := addLayerL_v h
  refine ⟨⟨e1.symm, e4 ▸ hR.u⟩, ⟨e3.symm, e6 ▸ hR.m⟩, ⟨e2.symm, e5 ▸ hR.w⟩, ⟨e7, e8, hR.fits⟩, ?_⟩
  intro i _ i' _ b _
  rw [e9, contrR_cons, contrR_cons]
  refine sum_congr rfl fun q hq => sum_congr rfl fun q' hq' => sum_congr rfl fun c hc => ?_
  have a1 : q < R.u := by rw [e4]; exact mem_range.mp hq
  have a2 : q' < R.w := by rw [e5]; exact mem_range.mp hq'
  have a3 : c < R.m := by rw [e6]; exact mem_range.mp hc
  rw [contrR_nil R a1 a2 a3, hR.v q a1 q' a2 c a3]

theorem contrL_snoc {E L : Env K} {A B : Ten K} {W : Mpo K} {As Bs : List (Ten K)} {Ws : List (Mpo K)}
    (hL : IsL E As Ws Bs L) {j j' b' : ℕ}
    (hj : j < A.r) (hj' : j' < B.r) (hb : b' < W.r) :
    contrL E (As ++ [A]) (Ws ++ [W]) (Bs ++ [B]) j j' b' = contrL L [A] [W] [B] j j' b' := by
  -- pair with a delta on the right
  let F : Env K := ⟨A.r, B.r, W.r, fun q q' c => delta K j q * (delta K j' q' * delta K b' c)⟩
  have hF : ∀ (G : Env K) (X : List (Ten K)) (V : List (Mpo K)) (Y : List (Ten K)),
      fullContr G X V Y F = contrL G X V Y j j' b' := by
    intro G X V Y
    rw [fullContr_eq_left]
    have : ∀ q q' c, contrL G X V Y q q' c * F.v q q' c
        = delta K j q * (delta K j' q' * (delta K b' c * contrL G X V Y q q' c)) := by
      intro q q' c; simp only [F]; ring
    simp only [this, ← mul_sum]
    rw [sum_delta_left (by exact hj), sum_delta_left (by exact hj'), sum_delta_left (by exact hb)]
  have e : ∀ i ∈ range E.u, ∀ i' ∈ range E.w, ∀ b ∈ range E.m,
      contrR F (As ++ [A]) (Ws ++ [W]) (Bs ++ [B]) i i' b
        = contrR ⟨L.u, L.w, L.m, contrR F [A] [W] [B]⟩ As Ws Bs i i' b := by
    intro i hi i' hi' b hb
    have hl := fits_length hL.fits
    exact contrR_append (F := ⟨L.u, L.w, L.m, contrR F [A] [W] [B]⟩) (fun q _ q' _ c _ => rfl) hL.u hL.w hL.m
      hl.1 hl.2 (mem_range.mp hi) (mem_range.mp hi') (mem_range.mp hb)
  rw [← hF, ← hF, fullContr_eq_right]
  have e2 : ∀ i ∈ range E.u, ∀ i' ∈ range E.w, ∀ b ∈ range E.m,
      E.v i i' b * contrR F (As ++ [A]) (Ws ++ [W]) (Bs ++ [B]) i i' b
        = E.v i i' b * contrR ⟨L.u, L.w, L.m, contrR F [A] [W] [B]⟩ As Ws Bs i i' b := by
    intro i hi i' hi' b hb
    rw [e i hi i' hi' b hb]
  rw [sum_congr rfl fun i hi => sum_congr rfl fun i' hi' => sum_congr rfl fun b hb => e2 i hi i' hi' b hb,
    ← fullContr_eq_right, fullContr_eq_left, fullContr_eq_right]
  refine sum_congr rfl fun i hi => sum_congr rfl fun i' hi' => sum_congr rfl fun b hb => ?_
  rw [hL.v i (mem_range.mp hi) i' (mem_range.mp hi') b (mem_range.mp hb)]

theorem isL_snoc {E L L1 : Env K} {A B : Ten K} {W : Mpo K} {As Bs : List (Ten K)} {Ws : List (Mpo K)}
    (hL : IsL E As Ws Bs L) (h : addLayerR L A W B = .ok L1) :
    IsL E (As ++ [A]) (Ws ++ [W]) (Bs ++ [B]) L1 := by
  have h1 := isL_cons h (isL_nil L1)
  obtain ⟨⟨u1, u2⟩, ⟨m1, m2⟩, ⟨w1, w2⟩, ⟨f1, f2, -⟩, v⟩ := h1
  simp only [Linked, MLinked] at u2 m2 w2
  refine ⟨linked_append.mpr ⟨_, hL.u, u1, u2⟩, mlinked_append.mpr ⟨_, hL.m, m1, m2⟩,
    linked_append.mpr ⟨_, hL.w, w1, w2⟩, fits_append hL.fits ⟨f1, f2, trivial⟩, ?_⟩
  intro j hj j' hj' b hb
  rw [v j hj j' hj' b hb, contrL_snoc hL (u2 ▸ hj) (w2 ▸ hj') (m2 ▸ hb)]

end

end PyTeN
