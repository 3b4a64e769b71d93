import Verif.Engine.Tdvp

/-! # The energy of a state, and effective Hamiltonians

Specification of the energy and the norm of a family of amplitudes, and the link to the effective Hamiltonians of a site and
of a bond. -/

namespace PyTeN
open Finset

noncomputable section

/-- Spec: matrix element of the operator given by the MPO and the two boundaries. -/
def helem (lb : Env ℂ) (mpo : List (Mpo ℂ)) (rb : Env ℂ) (s s' : List ℕ) (i i' j j' : ℕ) : ℂ :=
  ∑ b ∈ range lb.m, ∑ b' ∈ range rb.m, lb.v i i' b * mchain mpo s s' b b' * rb.v j j' b'

/-- Spec: `⟨g|H|f⟩`. -/
def hform (lb : Env ℂ) (mpo : List (Mpo ℂ)) (rb : Env ℂ) (ds : List ℕ) (f g : Amp) : ℂ :=
  sumCfg ds fun s => sumCfg ds fun s' => ∑ i ∈ range lb.u, ∑ i' ∈ range lb.w, ∑ j ∈ range rb.u, ∑ j' ∈ range rb.w,
    helem lb mpo rb s s' i i' j j' * f s i j * star (g s' i' j')

/-- Spec: squared norm. -/
def nsq (ds : List ℕ) (l r : ℕ) (f : Amp) : ℝ :=
  sumCfg ds fun s => ∑ i ∈ range l, ∑ j ∈ range r, Complex.normSq (f s i j)

/-- Spec: the operator is Hermitian. -/
structure HermH (lb : Env ℂ) (mpo : List (Mpo ℂ)) (rb : Env ℂ) (ds : List ℕ) : Prop where
  lw : lb.w = lb.u
  rw : rb.w = rb.u
  herm : ∀ s s', Conf ds s → Conf ds s' → ∀ i < lb.u, ∀ i' < lb.u, ∀ j < rb.u, ∀ j' < rb.u,
    helem lb mpo rb s s' i i' j j' = star (helem lb mpo rb s' s i' i j' j)

/-- Spec: squared norm of a tensor. -/
def Ten.nsq (T : Ten ℂ) : ℝ := ∑ i ∈ range T.l, ∑ j ∈ range T.r, ∑ s ∈ range T.d, Complex.normSq (T.v i j s)

/-- Spec: squared norm of a matrix. -/
def Mat.nsq (C : Mat ℂ) : ℝ := ∑ i ∈ range C.r, ∑ j ∈ range C.c, Complex.normSq (C.v i j)

/-- Spec: matrix element of the effective Hamiltonian of a site. -/
def siteEl (L : Env ℂ) (W : Mpo ℂ) (R : Env ℂ) (i i' j j' s s' : ℕ) : ℂ :=
  ∑ b ∈ range L.m, ∑ b' ∈ range R.m, L.v i i' b * W.v b b' s s' * R.v j j' b'

/-- Spec: matrix element of the effective Hamiltonian of a bond. -/
def bondMatEl (L R : Env ℂ) (i i' j j' : ℕ) : ℂ := ∑ b ∈ range L.m, L.v i i' b * R.v j j' b

/-- Spec: `⟨X|H_eff|T⟩` of a site. -/
def siteForm (L : Env ℂ) (W : Mpo ℂ) (R : Env ℂ) (T X : Ten ℂ) : ℂ :=
  ∑ i ∈ range T.l, ∑ i' ∈ range X.l, ∑ j ∈ range T.r, ∑ j' ∈ range X.r, ∑ s ∈ range T.d, ∑ s' ∈ range X.d,
    siteEl L W R i i' j j' s s' * T.v i j s * star (X.v i' j' s')

/-- Spec: `⟨X|H_eff|C⟩` of a bond. -/
def bondForm (L R : Env ℂ) (C X : Mat ℂ) : ℂ :=
  ∑ i ∈ range C.r, ∑ i' ∈ range X.r, ∑ j ∈ range C.c, ∑ j' ∈ range X.c,
    bondMatEl L R i i' j j' * C.v i j * star (X.v i' j')

/-- Spec: the effective Hamiltonian of a site is a Hermitian operator on tensors of shape `(l,r,d)`. -/
structure SiteHerm (L : Env ℂ) (W : Mpo ℂ) (R : Env ℂ) (l r d : ℕ) : Prop where
  Lu : L.u = l
  Lw : L.w = l
  Ru : R.u = r
  Rw : R.w = r
  Wi : W.din = d
  Wo : W.dout = d
  Wl : W.l = L.m
  Wr : W.r = R.m
  herm : ∀ i < l, ∀ i' < l, ∀ j < r, ∀ j' < r, ∀ s < d, ∀ s' < d,
    siteEl L W R i i' j j' s s' = star (siteEl L W R i' i j' j s' s)

/-- Spec: the effective Hamiltonian of a bond is a Hermitian operator on matrices of shape `(r,c)`. -/
structure BondHerm (L R : Env ℂ) (r c : ℕ) : Prop where
  Lu : L.u = r
  Lw : L.w = r
  Ru : R.u = c
  Rw : R.w = c
  m : L.m = R.m
  herm : ∀ i < r, ∀ i' < r, ∀ j < c, ∀ j' < c, bondMatEl L R i i' j j' = star (bondMatEl L R i' i j' j)

theorem conf_take {ds s : List ℕ} (h : Conf ds s) (n : ℕ) : Conf (ds.take n) (s.take n) := List.forall₂_take n h

theorem conf_drop {ds s : List ℕ} (h : Conf ds s) (n : ℕ) : Conf (ds.drop n) (s.drop n) := List.forall₂_drop n h

/-- The full network is the form of the two chains. -/
theorem fullContr_form {lb rb : Env ℂ} {As Bs : List (Ten ℂ)} {mpo : List (Mpo ℂ)} {ds : List ℕ}
    (hA : As.map Ten.d = ds) (hB : Bs.map Ten.d = ds) :
    fullContr lb As mpo Bs rb = hform lb mpo rb ds (chain As) (chain Bs) := by
  unfold fullContr hform helem
  rw [hA, hB]
  refine sumCfg_congr fun s _ => sumCfg_congr fun s' _ => ?_
  refine sum_congr rfl fun i _ => sum_congr rfl fun i' _ => ?_
  simp only [sum_mul]
  rw [sum_comm]
  refine sum_congr rfl fun j _ => ?_
  rw [sum_comm]
  refine sum_congr rfl fun j' _ => sum_congr rfl fun b _ => sum_congr rfl fun b' _ => ?_
  ring

theorem hform_congr {lb rb : Env ℂ} {mpo : List (Mpo ℂ)} {ds : List ℕ} {f f' g g' : Amp}
    (h1 : ∀ s, Conf ds s → ∀ i < lb.u, ∀ j < rb.u, f s i j = f' s i j)
    (h2 : ∀ s, Conf ds s → ∀ i < lb.w, ∀ j < rb.w, g s i j = g' s i j) :
    hform lb mpo rb ds f g = hform lb mpo rb ds f' g' := by
  unfold hform
  refine sumCfg_congr fun s hs => sumCfg_congr fun s' hs' => ?_
  refine sum_congr rfl fun i hi => sum_congr rfl fun i' hi' => sum_congr rfl fun j hj => sum_congr rfl fun j' hj' => ?_
  rw [mem_range] at hi hi' hj hj'
  rw [h1 s hs i hi j hj, h2 s' hs' i' hi' j' hj']

theorem hform_smul {lb rb : Env ℂ} {mpo : List (Mpo ℂ)} {ds : List ℕ} (c c' : ℂ) (f g : Amp) :
    hform lb mpo rb ds (fun s i j => c * f s i j) (fun s i j => c' * g s i j) = c * star c' * hform lb mpo rb ds f g := by
  unfold hform
  rw [← sumCfg_mul]
  refine sumCfg_congr fun s _ => ?_
  rw [← sumCfg_mul]
  refine sumCfg_congr fun s' _ => ?_
  simp only [mul_sum]
  refine sum_congr rfl fun i _ => sum_congr rfl fun i' _ => sum_congr rfl fun j _ => sum_congr rfl fun j' _ => ?_
  rw [star_mul']
  ring

theorem nsq_congr {ds : List ℕ} {l r : ℕ} {f g : Amp} (h : ∀ s, Conf ds s → ∀ i < l, ∀ j < r, f s i j = g s i j) :
    nsq ds l r f = nsq ds l r g := by
  unfold nsq
  refine sumCfg_congr fun s hs => sum_congr rfl fun i hi => sum_congr rfl fun j hj => ?_
  rw [h s hs i (mem_range.mp hi) j (mem_range.mp hj)]

theorem nsq_smul {ds : List ℕ} {l r : ℕ} (c : ℂ) (f : Amp) :
    nsq ds l r (fun s i j => c * f s i j) = Complex.normSq c * nsq ds l r f := by
  unfold nsq
  rw [← sumCfg_mul]
  refine sumCfg_congr fun s _ => ?_
  simp only [mul_sum, map_mul]

theorem hform_star {lb rb : Env ℂ} {mpo : List (Mpo ℂ)} {ds : List ℕ} (hH : HermH lb mpo rb ds) (f g : Amp) :
    star (hform lb mpo rb ds f g) = hform lb mpo rb ds g f := by
  unfold hform
  rw [sumCfg_star]
  simp only [sumCfg_star]
  rw [sumCfg_comm]
  refine sumCfg_congr fun s' hs' => sumCfg_congr fun s hs => ?_
  simp only [star_sum]
  rw [hH.lw, hH.rw]
  rw [sum_comm]
  refine sum_congr rfl fun i' hi' => sum_congr rfl fun i hi => ?_
  rw [sum_comm]
  refine sum_congr rfl fun j' hj' => sum_congr rfl fun j hj => ?_
  rw [mem_range] at hi hi' hj hj'
  rw [star_mul', star_mul', star_star, hH.herm s' s hs' hs i' hi' i hi j' hj' j hj]
  ring

/-- The energy of a state is real. -/
theorem hform_real {lb rb : Env ℂ} {mpo : List (Mpo ℂ)} {ds : List ℕ} (hH : HermH lb mpo rb ds) (f : Amp) :
    ((hform lb mpo rb ds f f).re : ℂ) = hform lb mpo rb ds f f :=
  Complex.conj_eq_iff_re.mp (hform_star hH f f)

/-- A site with its environments. -/
structure SiteCtx (lb rb : Env ℂ) (mpo : List (Mpo ℂ)) (ds : List ℕ) (ts : List (Ten ℂ)) (n : ℕ) (L : Env ℂ) (W : Mpo ℂ)
    (R : Env ℂ) (l r d : ℕ) : Prop where
  lt : n < ts.length
  op : mpo[n]? = some W
  isL : IsL lb (ts.take n) (mpo.take n) (ts.take n) L
  isR : IsR rb (ts.drop (n + 1)) (mpo.drop (n + 1)) (ts.drop (n + 1)) R
  dsL : (ts.take n).map Ten.d = ds.take n
  dsR : (ts.drop (n + 1)).map Ten.d = ds.drop (n + 1)
  dsn : ds[n]? = some d
  Lu : L.u = l
  Lw : L.w = l
  Ru : R.u = r
  Rw : R.w = r
  Wi : W.din = d
  Wo : W.dout = d
  Wl : W.l = L.m
  Wr : W.r = R.m

section
variable {lb rb : Env ℂ} {mpo : List (Mpo ℂ)} {ds : List ℕ} {ts : List (Ten ℂ)} {n : ℕ} {L R : Env ℂ} {W : Mpo ℂ} {l r d : ℕ}

theorem SiteCtx.map_d (h : SiteCtx lb rb mpo ds ts n L W R l r d) {T : Ten ℂ} (hd : T.d = d) : (ts.set n T).map Ten.d = ds := by
  rw [set_take_drop h.lt, List.map_append, List.map_cons, h.dsL, h.dsR, hd]
  rw [← drop_getElem? h.dsn, List.take_append_drop]

theorem siteForm_sum {T X : Ten ℂ} (hT : T.l = L.u ∧ T.r = R.u) (hX : X.l = L.w ∧ X.r = R.w ∧ X.d = W.dout) :
    siteForm L W R T X = ∑ i' ∈ range L.w, ∑ j' ∈ range R.w, ∑ s' ∈ range W.dout,
      (∑ i ∈ range L.u, ∑ b ∈ range L.m, ∑ s ∈ range T.d, ∑ j ∈ range R.u, ∑ b' ∈ range R.m,
        L.v i i' b * T.v i j s * W.v b b' s s' * R.v j j' b') * star (X.v i' j' s') := by
  unfold siteForm siteEl
  rw [hT.1, hT.2, hX.1, hX.2.1, hX.2.2, sum_comm]
  refine sum_congr rfl fun i' _ => ?_
  rw [sum_congr rfl fun i _ => sum_comm, sum_comm]
  refine sum_congr rfl fun j' _ => ?_
  rw [sum_congr rfl fun i _ => sum_congr rfl fun j _ => sum_comm]
  rw [sum_congr rfl fun i _ => sum_comm, sum_comm]
  refine sum_congr rfl fun s' _ => ?_
  simp only [sum_mul]
  refine sum_congr rfl fun i _ => ?_
  rw [sum_comm, sum_congr rfl fun s _ => sum_comm, sum_comm]
  refine sum_congr rfl fun b _ => sum_congr rfl fun s _ => sum_congr rfl fun j _ => sum_congr rfl fun b' _ => ?_
  ring

/-- The form of two chains that differ in the tensor of one site is the form of the effective Hamiltonian. -/
theorem SiteCtx.form (h : SiteCtx lb rb mpo ds ts n L W R l r d) {T X : Ten ℂ} (hT : T.l = l ∧ T.r = r ∧ T.d = d)
    (hX : X.l = l ∧ X.r = r ∧ X.d = d) :
    hform lb mpo rb ds (chain (ts.set n T)) (chain (ts.set n X)) = siteForm L W R T X := by
  rw [← fullContr_form (h.map_d hT.2.2) (h.map_d hX.2.2)]
  obtain ⟨Y, hY⟩ : ∃ Y, contractionH L T W R = .ok Y := by
    unfold contractionH
    rw [if_pos ⟨h.Lu.trans hT.1.symm, h.Wl.symm, hT.2.2.trans h.Wi.symm, hT.2.1.trans h.Ru.symm, h.Wr⟩]
    exact ⟨_, rfl⟩
  have key := C30_contractionH h.isL h.isR (B := X) (hX.1.trans h.Lw.symm) (hX.2.1.trans h.Rw.symm) (hX.2.2.trans h.Wo.symm) hY
  rw [← drop_getElem? h.op, List.take_append_drop, ← set_take_drop h.lt, ← set_take_drop h.lt] at key
  rw [← key, siteForm_sum ⟨hT.1.trans h.Lu.symm, hT.2.1.trans h.Ru.symm⟩ ⟨hX.1.trans h.Lw.symm, hX.2.1.trans h.Rw.symm, hX.2.2.trans h.Wo.symm⟩]
  unfold contractionH at hY
  split_ifs at hY
  simp only [Except.ok.injEq] at hY
  subst hY
  rfl

/-- Unit tensor. -/
def unitT (l r d i j s : ℕ) : Ten ℂ := ⟨l, r, d, fun a b c => delta ℂ i a * (delta ℂ j b * delta ℂ s c)⟩

theorem siteForm_unit {i i' j j' s s' : ℕ} (hi : i < l) (hi' : i' < l) (hj : j < r) (hj' : j' < r) (hs : s < d) (hs' : s' < d) :
    siteForm L W R (unitT l r d i j s) (unitT l r d i' j' s') = siteEl L W R i i' j j' s s' := by
  have hd : ∀ a b : ℕ, star (delta ℂ a b) = delta ℂ a b := by intro a b; unfold delta; split_ifs <;> simp
  unfold siteForm unitT
  simp only [star_mul', hd]
  have e : ∀ a a' b b' c c', siteEl L W R a a' b b' c c' * (delta ℂ i a * (delta ℂ j b * delta ℂ s c)) *
      (delta ℂ i' a' * (delta ℂ j' b' * delta ℂ s' c'))
      = delta ℂ i a * (delta ℂ i' a' * (delta ℂ j b * (delta ℂ j' b' * (delta ℂ s c * (delta ℂ s' c' * siteEl L W R a a' b b' c c'))))) := by
    intros; ring
  simp only [e, ← mul_sum]
  rw [sum_delta_left hi, sum_delta_left hi', sum_delta_left hj, sum_delta_left hj', sum_delta_left hs, sum_delta_left hs']

theorem SiteCtx.herm (h : SiteCtx lb rb mpo ds ts n L W R l r d) (hH : HermH lb mpo rb ds) : SiteHerm L W R l r d := by
  refine ⟨h.Lu, h.Lw, h.Ru, h.Rw, h.Wi, h.Wo, h.Wl, h.Wr, fun i hi i' hi' j hj j' hj' s hs s' hs' => ?_⟩
  rw [← siteForm_unit hi hi' hj hj' hs hs', ← siteForm_unit hi' hi hj' hj hs' hs, ← h.form ⟨rfl, rfl, rfl⟩ ⟨rfl, rfl, rfl⟩,
    ← h.form ⟨rfl, rfl, rfl⟩ ⟨rfl, rfl, rfl⟩, hform_star hH]

theorem collapse_site {l' r' : ℕ} {A B : List (Ten ℂ)} {T : Ten ℂ} (hA : Linked l' A T.l) (hB : Linked T.r B r')
    (hl : ∀ t ∈ A, LeftOrth t) (hr : ∀ t ∈ B, RightOrth t) :
    nsq ((A ++ T :: B).map Ten.d) l' r' (chain (A ++ T :: B)) = T.nsq := by
  have hstar : ∀ z : ℂ, ((Complex.normSq z : ℝ) : ℂ) = star z * z := by
    intro z; rw [Complex.normSq_eq_conj_mul_self]; rfl
  apply Complex.ofReal_injective
  unfold nsq Ten.nsq
  rw [sumCfg_ofReal, List.map_append, List.map_cons, sumCfg_append]
  simp only [sumCfg, sumCfg_sum]
  push_cast
  simp only [hstar]
  rw [sum_congr rfl fun i _ => sum_comm, sum_comm]
  refine sum_congr rfl fun x _ => ?_
  rw [← collapse hA hB hl hr (fun k k' => T.v k k' x) (fun k k' => T.v k k' x)]
  refine sumCfg_congr fun sA hsA => sumCfg_congr fun sB _ => sum_congr rfl fun i hi => sum_congr rfl fun j _ => ?_
  have hc : chain (A ++ T :: B) (sA ++ x :: sB) i j = ∑ k ∈ range T.l, ∑ k' ∈ range T.r, chain A sA i k * T.v k k' x * chain B sB k' j := by
    rw [chain_append hA sA (x :: sB) (by rw [← hsA.length_eq, List.length_map]) (mem_range.mp hi)]
    refine sum_congr rfl fun k _ => ?_
    simp only [chain, mul_sum, mul_assoc]
  rw [hc]

theorem SiteCtx.nsq (h : SiteCtx lb rb mpo ds ts n L W R l r d) {T : Ten ℂ} (hT : T.l = l ∧ T.r = r ∧ T.d = d)
    (hl : ∀ x t, ts[x]? = some t → x < n → LeftOrth t) (hr : ∀ x t, ts[x]? = some t → n < x → RightOrth t) :
    PyTeN.nsq ds lb.u rb.u (chain (ts.set n T)) = T.nsq := by
  rw [← h.map_d hT.2.2, set_take_drop h.lt]
  refine collapse_site (hT.1 ▸ h.Lu ▸ h.isL.u) (hT.2.1 ▸ h.Ru ▸ h.isR.u) (fun t ht => ?_) fun t ht => ?_
  · obtain ⟨x, hx, rfl⟩ := List.mem_iff_getElem.mp ht
    simp only [List.length_take] at hx
    rw [List.getElem_take]
    exact hl x _ (List.getElem?_eq_getElem (by omega)) (by omega)
  · obtain ⟨x, hx, rfl⟩ := List.mem_iff_getElem.mp ht
    simp only [List.length_drop] at hx
    rw [List.getElem_drop]
    exact hr (n + 1 + x) _ (List.getElem?_eq_getElem (by omega)) (by omega)

/-- Spec: insert an element at position `k`. -/
def ins {α : Type*} (k : ℕ) (a : α) (l : List α) : List α := l.take k ++ a :: l.drop k

theorem ins_set {α : Type*} {k : ℕ} {l : List α} (hk : k ≤ l.length) (a b : α) : (ins k a l).set k b = ins k b l := by
  unfold ins
  rw [List.set_append_right _ _ (by simp), List.length_take, min_eq_left hk, Nat.sub_self]
  rfl

theorem ins_take {α : Type*} {k : ℕ} {l : List α} (hk : k ≤ l.length) (a : α) : (ins k a l).take k = l.take k := by
  unfold ins
  rw [List.take_append, List.take_take, min_self, List.length_take, min_eq_left hk, Nat.sub_self]
  simp

theorem ins_drop {α : Type*} {k : ℕ} {l : List α} (hk : k ≤ l.length) (a : α) : (ins k a l).drop (k + 1) = l.drop k := by
  unfold ins
  rw [List.drop_append, List.length_take, min_eq_left hk, List.drop_of_length_le (by simp)]
  simp

theorem ins_get {α : Type*} {k : ℕ} {l : List α} (hk : k ≤ l.length) (a : α) : (ins k a l)[k]? = some a := by
  unfold ins
  rw [List.getElem?_append_right (by simp), List.length_take, min_eq_left hk, Nat.sub_self]
  rfl

theorem ins_length {α : Type*} {k : ℕ} {l : List α} (hk : k ≤ l.length) (a : α) : (ins k a l).length = l.length + 1 := by
  unfold ins
  simp only [List.length_append, List.length_take, List.length_cons, List.length_drop]; omega

theorem sumCfg_ins {K : Type*} [CommRing K] {k : ℕ} {ds : List ℕ} (hk : k ≤ ds.length) (F : List ℕ → K) :
    sumCfg (ins k 1 ds) F = sumCfg ds fun s => F (ins k 0 s) := by
  conv_rhs => rw [← List.take_append_drop k ds]
  unfold ins
  rw [sumCfg_append, sumCfg_append]
  refine sumCfg_congr fun sA hA => ?_
  simp only [sumCfg, sum_range_one]
  refine sumCfg_congr fun sB _ => ?_
  have h1 : sA.length = k := by rw [← hA.length_eq, List.length_take, min_eq_left hk]
  rw [← h1, List.take_left', List.drop_left'] <;> rfl

theorem conf_ins {k : ℕ} {ds s : List ℕ} (hk : k ≤ ds.length) (h : Conf (ins k 1 ds) s) : ∃ t, Conf ds t ∧ s = ins k 0 t := by
  have h1 := conf_take h k
  have h2 := conf_drop h k
  rw [ins_take hk] at h1
  have h3 : (ins k 1 ds).drop k = 1 :: ds.drop k := by rw [drop_getElem? (ins_get hk 1), ins_drop hk]
  rw [h3] at h2
  unfold Conf at h2
  rw [List.forall₂_cons_left_iff] at h2
  obtain ⟨x, t, hx, ht, hs⟩ := h2
  obtain rfl : x = 0 := by omega
  refine ⟨s.take k ++ t, ?_, ?_⟩
  · have := List.rel_append h1 ht
    simp only [List.take_append_drop] at this
    exact this
  · have h4 : (s.take k).length = k := by rw [h1.length, List.length_take, min_eq_left hk]
    conv_lhs => rw [← List.take_append_drop k s, hs]
    unfold ins
    rw [List.take_left' h4, List.drop_left' h4]

theorem mchain_ins {K : Type*} [CommRing K] {q : ℕ} {Ws2 : List (Mpo K)} {s2 s2' : List ℕ} :
    ∀ {Ws1 : List (Mpo K)} {s1 s1' : List ℕ} {l b : ℕ}, MLinked l Ws1 q → s1.length = Ws1.length → s1'.length = Ws1.length →
      b < l → ∀ b', mchain (Ws1 ++ idW q :: Ws2) (s1 ++ 0 :: s2) (s1' ++ 0 :: s2') b b' = mchain (Ws1 ++ Ws2) (s1 ++ s2) (s1' ++ s2') b b'
  | [], s1, s1', l, b, hl, h1, h1', hb, b' => by
    obtain rfl : s1 = [] := by simpa using h1
    obtain rfl : s1' = [] := by simpa using h1'
    obtain rfl : l = q := hl
    simp only [List.nil_append, mchain, idW]
    rw [sum_delta_left hb]
  | W :: Ws, x :: s1, y :: s1', l, b, hl, h1, h1', hb, b' => by
    simp only [List.cons_append, mchain]
    refine sum_congr rfl fun c hc => ?_
    rw [mchain_ins hl.2 (by simpa using h1) (by simpa using h1') (mem_range.mp hc)]

/-- A bond with its environments. -/
structure BondCtx (lb rb : Env ℂ) (mpo : List (Mpo ℂ)) (ds : List ℕ) (ts : List (Ten ℂ)) (k : ℕ) (L R : Env ℂ)
    (r c : ℕ) : Prop where
  le : k ≤ ts.length
  len : mpo.length = ts.length
  isL : IsL lb (ts.take k) (mpo.take k) (ts.take k) L
  isR : IsR rb (ts.drop k) (mpo.drop k) (ts.drop k) R
  map_d : ts.map Ten.d = ds
  Lu : L.u = r
  Lw : L.w = r
  Ru : R.u = c
  Rw : R.w = c
  m : L.m = R.m

section
variable {lb rb : Env ℂ} {mpo : List (Mpo ℂ)} {ds : List ℕ} {ts : List (Ten ℂ)} {k : ℕ} {L R : Env ℂ} {r c : ℕ}

theorem BondCtx.ds_le (h : BondCtx lb rb mpo ds ts k L R r c) : k ≤ ds.length := by
  rw [← h.map_d, List.length_map]; exact h.le

theorem BondCtx.site (h : BondCtx lb rb mpo ds ts k L R r c) (C : Mat ℂ) :
    SiteCtx lb rb (ins k (idW L.m) mpo) (ins k 1 ds) (ins k (matT C) ts) k L (idW L.m) R r c 1 := by
  have h1 : k ≤ mpo.length := by rw [h.len]; exact h.le
  refine ⟨by rw [ins_length h.le]; have := h.le; omega, ins_get h1 _, ?_, ?_, ?_, ?_, ins_get h.ds_le _, h.Lu, h.Lw, h.Ru, h.Rw,
    rfl, rfl, rfl, h.m⟩
  · rw [ins_take h.le, ins_take h1]; exact h.isL
  · rw [ins_drop h.le, ins_drop h1]; exact h.isR
  · rw [ins_take h.le, ins_take h.ds_le, ← h.map_d, List.map_take]
  · rw [ins_drop h.le, ins_drop h.ds_le, ← h.map_d, List.map_drop]

theorem BondCtx.helem_ins (h : BondCtx lb rb mpo ds ts k L R r c) {s s' : List ℕ} (hs : Conf ds s) (hs' : Conf ds s')
    (i i' j j' : ℕ) : helem lb (ins k (idW L.m) mpo) rb (ins k 0 s) (ins k 0 s') i i' j j' = helem lb mpo rb s s' i i' j j' := by
  have h1 : k ≤ mpo.length := by rw [h.len]; exact h.le
  have hl : ∀ {t : List ℕ}, Conf ds t → (t.take k).length = (mpo.take k).length := by
    intro t ht
    rw [List.length_take, List.length_take, ht.length, ← h.map_d, List.length_map, h.len]
  unfold helem ins
  refine sum_congr rfl fun b hb => sum_congr rfl fun b' _ => ?_
  rw [mchain_ins h.isL.m (hl hs) (hl hs') (mem_range.mp hb), List.take_append_drop, List.take_append_drop, List.take_append_drop]

theorem BondCtx.hform_ins (h : BondCtx lb rb mpo ds ts k L R r c) (f g : Amp) :
    hform lb (ins k (idW L.m) mpo) rb (ins k 1 ds) f g
      = hform lb mpo rb ds (fun s => f (ins k 0 s)) (fun s => g (ins k 0 s)) := by
  unfold hform
  rw [sumCfg_ins h.ds_le]
  refine sumCfg_congr fun s hs => ?_
  rw [sumCfg_ins h.ds_le]
  refine sumCfg_congr fun s' hs' => ?_
  simp only [h.helem_ins hs hs']

theorem BondCtx.hermH_ins (h : BondCtx lb rb mpo ds ts k L R r c) (hH : HermH lb mpo rb ds) :
    HermH lb (ins k (idW L.m) mpo) rb (ins k 1 ds) := by
  refine ⟨hH.lw, hH.rw, fun s s' hs hs' => ?_⟩
  obtain ⟨t, ht, rfl⟩ := conf_ins h.ds_le hs
  obtain ⟨t', ht', rfl⟩ := conf_ins h.ds_le hs'
  simp only [h.helem_ins ht ht', h.helem_ins ht' ht]
  exact hH.herm t t' ht ht'

theorem BondCtx.chain_ins (h : BondCtx lb rb mpo ds ts k L R r c) {C : Mat ℂ} (hC : C.r = r ∧ C.c = c) {s : List ℕ}
    (hs : Conf ds s) {i : ℕ} (hi : i < lb.u) (j : ℕ) :
    chain (ins k (matT C) ts) (ins k 0 s) i j = split (ts.take k) C (ts.drop k) (s.take k) (s.drop k) i j := by
  unfold ins split
  rw [chain_append h.isL.u _ _ (by rw [List.length_take, List.length_take, hs.length, ← h.map_d, List.length_map]) hi, h.Lu, hC.1]
  refine sum_congr rfl fun x _ => ?_
  simp only [chain, matT, mul_sum, mul_assoc]

theorem bondForm_site (hm : L.m = R.m) (C X : Mat ℂ) : siteForm L (idW L.m) R (matT C) (matT X) = bondForm L R C X := by
  unfold siteForm bondForm siteEl bondMatEl matT idW
  simp only [sum_range_one]
  refine sum_congr rfl fun i _ => sum_congr rfl fun i' _ => sum_congr rfl fun j _ => sum_congr rfl fun j' _ => ?_
  congr 2
  refine sum_congr rfl fun b hb => ?_
  rw [← hm]
  have : ∀ b', L.v i i' b * delta ℂ b b' * R.v j j' b' = delta ℂ b b' * (L.v i i' b * R.v j j' b') := by intro b'; ring
  simp only [this]
  rw [sum_delta_left (mem_range.mp hb)]

/-- The form of two chains that differ in the matrix on a bond is the form of the effective Hamiltonian of the bond. -/
theorem BondCtx.form (h : BondCtx lb rb mpo ds ts k L R r c) (hw : lb.w = lb.u) {C X : Mat ℂ} (hC : C.r = r ∧ C.c = c)
    (hX : X.r = r ∧ X.c = c) :
    hform lb mpo rb ds (fun s i j => split (ts.take k) C (ts.drop k) (s.take k) (s.drop k) i j)
      (fun s i j => split (ts.take k) X (ts.drop k) (s.take k) (s.drop k) i j) = bondForm L R C X := by
  rw [← bondForm_site h.m, ← (h.site C).form (T := matT C) (X := matT X) ⟨hC.1, hC.2, rfl⟩ ⟨hX.1, hX.2, rfl⟩, h.hform_ins,
    ins_set h.le, ins_set h.le]
  exact hform_congr (fun s hs i hi j _ => (h.chain_ins hC hs hi j).symm)
    fun s hs i hi j _ => (h.chain_ins hX hs (hw ▸ hi) j).symm

theorem BondCtx.herm (h : BondCtx lb rb mpo ds ts k L R r c) (hH : HermH lb mpo rb ds) : BondHerm L R r c := by
  refine ⟨h.Lu, h.Lw, h.Ru, h.Rw, h.m, fun i hi i' hi' j hj j' hj' => ?_⟩
  have h1 := ((h.site ⟨0, 0, 0⟩).herm (h.hermH_ins hH)).herm i hi i' hi' j hj j' hj' 0 one_pos 0 one_pos
  have h2 : ∀ i i' j j', siteEl L (idW L.m) R i i' j j' 0 0 = bondMatEl L R i i' j j' := by
    intro i i' j j'
    unfold siteEl bondMatEl idW
    refine sum_congr rfl fun b hb => ?_
    rw [← h.m]
    have : ∀ b', L.v i i' b * delta ℂ b b' * R.v j j' b' = delta ℂ b b' * (L.v i i' b * R.v j j' b') := by intro b'; ring
    simp only [this]
    rw [sum_delta_left (mem_range.mp hb)]
  rwa [h2, h2] at h1

theorem matT_nsq (C : Mat ℂ) : (matT C).nsq = C.nsq := by
  unfold Ten.nsq Mat.nsq matT
  simp only [sum_range_one]

theorem BondCtx.nsq (h : BondCtx lb rb mpo ds ts k L R r c) {C : Mat ℂ} (hC : C.r = r ∧ C.c = c)
    (hl : ∀ x t, ts[x]? = some t → x < k → LeftOrth t) (hr : ∀ x t, ts[x]? = some t → k ≤ x → RightOrth t) :
    PyTeN.nsq ds lb.u rb.u (fun s i j => split (ts.take k) C (ts.drop k) (s.take k) (s.drop k) i j) = C.nsq := by
  rw [← matT_nsq, ← (h.site C).nsq (T := matT C) ⟨hC.1, hC.2, rfl⟩, ins_set h.le]
  · unfold PyTeN.nsq
    rw [sumCfg_ins h.ds_le]
    refine sumCfg_congr fun s hs => sum_congr rfl fun i hi => sum_congr rfl fun j _ => ?_
    rw [h.chain_ins hC hs (mem_range.mp hi)]
  · intro x t hx hxk
    unfold ins at hx
    rw [List.getElem?_append_left (by rw [List.length_take, min_eq_left h.le]; exact hxk), List.getElem?_take_of_lt hxk] at hx
    exact hl x t hx hxk
  · intro x t hx hxk
    unfold ins at hx
    rw [List.getElem?_append_right (by rw [List.length_take]; omega), List.length_take, min_eq_left h.le,
      show x - k = (x - 1 - k) + 1 by omega, List.getElem?_cons_succ, List.getElem?_drop] at hx
    exact hr _ t hx (by omega)
end

end


end

end PyTeN
