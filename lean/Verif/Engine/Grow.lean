import Verif.Engine.Energy

/-! # Environments of a grown chain

Blocks are absorbed one after the other, and a form on a small chain with absorbed blocks is the form on the whole chain,
evaluated on states with the absorbed tensors at both ends. -/

namespace PyTeN
open Finset

section
variable {K : Type*} [CommSemiring K] [StarRing K]

/-- Absorbing two blocks one after the other. -/
theorem isL_append {E F : Env K} {As Bs : List (Ten K)} {Ws : List (Mpo K)} (h : IsL E As Ws Bs F) :
    ∀ {As' Bs' : List (Ten K)} {Ws' : List (Mpo K)} {G : Env K}, IsL F As' Ws' Bs' G →
      IsL E (As ++ As') (Ws ++ Ws') (Bs ++ Bs') G := by
  intro As'
  induction As' generalizing F As Bs Ws with
  | nil =>
    intro Bs' Ws' G h'
    have hf := h'.fits
    cases Ws' <;> cases Bs' <;> simp only [Fits] at hf
    have a1 : F.u = G.u := h'.u
    have a2 : F.m = G.m := h'.m
    have a3 : F.w = G.w := h'.w
    simp only [List.append_nil]
    refine ⟨a1 ▸ h.u, a2 ▸ h.m, a3 ▸ h.w, h.fits, fun j hj j' hj' b hb => ?_⟩
    rw [h'.v j hj j' hj' b hb, contrL_nil F (a1 ▸ hj) (a3 ▸ hj') (a2 ▸ hb), h.v j (a1 ▸ hj) j' (a3 ▸ hj') b (a2 ▸ hb)]
  | cons A As' ih =>
    intro Bs' Ws' G h'
    have hf := h'.fits
    cases Ws' with
    | nil => cases Bs' <;> simp [Fits] at hf
    | cons W Ws' =>
      cases Bs' with
      | nil => simp [Fits] at hf
      | cons B Bs' =>
        obtain ⟨f1, f2, f3⟩ := hf
        have hc : F.u = A.l ∧ F.m = W.l ∧ A.d = W.din ∧ F.w = B.l ∧ W.dout = B.d :=
          ⟨h'.u.1.symm, h'.m.1.symm, f1, h'.w.1.symm, f2⟩
        obtain ⟨F1, hF1⟩ : ∃ F1, addLayerR F A W B = .ok F1 := by
          unfold addLayerR; rw [if_pos hc]; exact ⟨_, rfl⟩
        have hd : F1.u = A.r ∧ F1.w = B.r ∧ F1.m = W.r := by
          have := hF1
          unfold addLayerR at this
          rw [if_pos hc] at this
          cases this; exact ⟨rfl, rfl, rfl⟩
        have h1 : IsL F1 As' Ws' Bs' G := by
          refine ⟨hd.1 ▸ h'.u.2, hd.2.2 ▸ h'.m.2, hd.2.1 ▸ h'.w.2, f3, fun j hj j' hj' b hb => ?_⟩
          rw [h'.v j hj j' hj' b hb, contrL_cons hF1]
        have := ih (isL_snoc h hF1) h1
        simpa using this

/-- Absorbing two blocks one after the other, from the right. -/
theorem isR_append {E F G : Env K} {X X' Y Y' : List (Ten K)} {V U : List (Mpo K)} (h : IsR E Y U Y' F)
    (h' : IsR F X V X' G) : IsR E (X ++ Y) (V ++ U) (X' ++ Y') G := by
  have hl := fits_length h'.fits
  refine ⟨linked_append.mpr ⟨_, h'.u, h.u⟩, mlinked_append.mpr ⟨_, h'.m, h.m⟩, linked_append.mpr ⟨_, h'.w, h.w⟩,
    fits_append h'.fits h.fits, fun j hj j' hj' b hb => ?_⟩
  rw [h'.v j hj j' hj' b hb]
  exact (contrR_append h.v h'.u h'.w h'.m hl.1 hl.2 hj hj' hb).symm

omit [StarRing K] in
theorem mchain_append {l m : ℕ} {V U : List (Mpo K)} (hV : MLinked l V m) :
    ∀ (a a' b b' : List ℕ), a.length = V.length → a'.length = V.length → ∀ {β : ℕ}, β < l → ∀ γ : ℕ,
    mchain (V ++ U) (a ++ b) (a' ++ b') β γ = ∑ c ∈ range m, mchain V a a' β c * mchain U b b' c γ := by
  induction V generalizing l with
  | nil =>
    intro a a' b b' ha ha' β hβ γ
    obtain rfl : a = [] := by simpa using ha
    obtain rfl : a' = [] := by simpa using ha'
    simp only [MLinked] at hV
    subst hV
    simp only [List.nil_append, mchain]
    rw [sum_delta_left hβ]
  | cons W V ih =>
    intro a a' b b' ha ha' β hβ γ
    cases a with
    | nil => simp at ha
    | cons x a =>
      cases a' with
      | nil => simp at ha'
      | cons x' a' =>
        simp only [List.cons_append, mchain]
        simp only [List.length_cons, Nat.add_right_cancel_iff] at ha ha'
        simp_rw [sum_mul]
        rw [sum_comm]
        refine sum_congr rfl fun k hk => ?_
        rw [ih hV.2 a a' b b' ha ha' (mem_range.mp hk), mul_sum]
        refine sum_congr rfl fun y _ => ?_
        ring

end

noncomputable section

/-- Spec: the state with the amplitudes `f` in the middle and the tensors `A`, `B` at the ends. -/
def padAmp (A B : List (Ten ℂ)) (l r : ℕ) (f : Amp) : Amp := fun s i j =>
  ∑ k ∈ range l, ∑ k' ∈ range r, chain A (s.take A.length) i k *
    f ((s.drop A.length).take (s.length - A.length - B.length)) k k' * chain B (s.drop (s.length - B.length)) k' j

theorem padAmp_cfg {A B : List (Ten ℂ)} {a b : List ℕ} (ha : a.length = A.length) (hb : b.length = B.length) (l r : ℕ) (f : Amp)
    (s : List ℕ) (i j : ℕ) : padAmp A B l r f (a ++ (s ++ b)) i j
      = ∑ k ∈ range l, ∑ k' ∈ range r, chain A a i k * f s k k' * chain B b k' j := by
  unfold padAmp
  have e1 : (a ++ (s ++ b)).take A.length = a := List.take_left' ha
  have e2 : (a ++ (s ++ b)).drop A.length = s ++ b := List.drop_left' ha
  have e3 : (a ++ (s ++ b)).length - A.length - B.length = s.length := by simp; omega
  have e4 : (a ++ (s ++ b)).drop ((a ++ (s ++ b)).length - B.length) = b := by
    rw [show (a ++ (s ++ b)).length - B.length = (a ++ s).length by simp; omega, ← List.append_assoc]
    exact List.drop_left' rfl
  rw [e1, e2, e3, e4, List.take_left' rfl]

/-- product of the three sums of a padded form -/
theorem pad_prod {n1 n2 n3 n4 n5 n6 n7 n8 : ℕ} (X : ℕ → ℕ → ℕ → ℕ → ℂ) (Y Z : ℕ → ℕ → ℂ) :
    (∑ β ∈ range n1, ∑ β' ∈ range n2, ∑ c ∈ range n3, ∑ c' ∈ range n4, X β β' c c') * (∑ k ∈ range n5, ∑ k' ∈ range n6, Y k k') *
        (∑ q ∈ range n7, ∑ q' ∈ range n8, Z q q')
      = ∑ β ∈ range n1, ∑ β' ∈ range n2, ∑ c ∈ range n3, ∑ c' ∈ range n4, ∑ k ∈ range n5, ∑ k' ∈ range n6, ∑ q ∈ range n7,
          ∑ q' ∈ range n8, X β β' c c' * Y k k' * Z q q' := by
  rw [sum_mul, sum_mul]; refine sum_congr rfl fun β _ => ?_
  rw [sum_mul, sum_mul]; refine sum_congr rfl fun β' _ => ?_
  rw [sum_mul, sum_mul]; refine sum_congr rfl fun c _ => ?_
  rw [sum_mul, sum_mul]; refine sum_congr rfl fun c' _ => ?_
  rw [mul_sum (range n5), sum_mul]; refine sum_congr rfl fun k _ => ?_
  rw [mul_sum (range n6), sum_mul]; refine sum_congr rfl fun k' _ => ?_
  rw [mul_sum]; refine sum_congr rfl fun q _ => ?_
  rw [mul_sum]

/-- product of two threefold sums -/
theorem pad_prod' {n1 n2 n3 n4 n5 n6 : ℕ} (X Y : ℕ → ℕ → ℕ → ℂ) (c : ℂ) :
    (∑ i ∈ range n1, ∑ i' ∈ range n2, ∑ β ∈ range n3, X i i' β) * (∑ j ∈ range n4, ∑ j' ∈ range n5, ∑ β' ∈ range n6, Y j j' β') * c
      = ∑ i ∈ range n1, ∑ i' ∈ range n2, ∑ β ∈ range n3, ∑ j ∈ range n4, ∑ j' ∈ range n5, ∑ β' ∈ range n6,
          X i i' β * Y j j' β' * c := by
  rw [sum_mul, sum_mul]; refine sum_congr rfl fun i _ => ?_
  rw [sum_mul, sum_mul]; refine sum_congr rfl fun i' _ => ?_
  rw [sum_mul, sum_mul]; refine sum_congr rfl fun β _ => ?_
  rw [mul_sum, sum_mul]; refine sum_congr rfl fun j _ => ?_
  rw [mul_sum, sum_mul]; refine sum_congr rfl fun j' _ => ?_
  rw [mul_sum, sum_mul]

/-- reordering of the sums of a padded form -/
theorem pad_reorder {n1 n2 n3 n4 n5 n6 n7 n8 n9 n10 n11 n12 : ℕ} (F : ℕ → ℕ → ℕ → ℕ → ℕ → ℕ → ℕ → ℕ → ℕ → ℕ → ℕ → ℕ → ℂ) :
    ∑ i ∈ range n1, ∑ i' ∈ range n2, ∑ j ∈ range n3, ∑ j' ∈ range n4, ∑ β ∈ range n5, ∑ β' ∈ range n6, ∑ c ∈ range n7,
        ∑ c' ∈ range n8, ∑ k ∈ range n9, ∑ k' ∈ range n10, ∑ q ∈ range n11, ∑ q' ∈ range n12, F i i' j j' β β' c c' k k' q q'
      = ∑ k ∈ range n9, ∑ q ∈ range n11, ∑ k' ∈ range n10, ∑ q' ∈ range n12, ∑ c ∈ range n7, ∑ c' ∈ range n8,
        ∑ i ∈ range n1, ∑ i' ∈ range n2, ∑ β ∈ range n5, ∑ j ∈ range n3, ∑ j' ∈ range n4, ∑ β' ∈ range n6,
          F i i' j j' β β' c c' k k' q q' := by
  have h1 := Finset.sum_comm (s := range n1 ×ˢ range n2 ×ˢ range n3 ×ˢ range n4 ×ˢ range n5 ×ˢ range n6 ×ˢ range n7 ×ˢ range n8)
    (t := range n9 ×ˢ range n10 ×ˢ range n11 ×ˢ range n12)
    (f := fun x y => F x.1 x.2.1 x.2.2.1 x.2.2.2.1 x.2.2.2.2.1 x.2.2.2.2.2.1 x.2.2.2.2.2.2.1 x.2.2.2.2.2.2.2 y.1 y.2.1 y.2.2.1 y.2.2.2)
  simp only [Finset.sum_product] at h1
  rw [h1]
  refine sum_congr rfl fun k _ => ?_
  rw [sum_comm]
  refine sum_congr rfl fun q _ => sum_congr rfl fun k' _ => sum_congr rfl fun q' _ => ?_
  have h2 := Finset.sum_comm (s := range n1 ×ˢ range n2 ×ˢ range n3 ×ˢ range n4 ×ˢ range n5 ×ˢ range n6)
    (t := range n7 ×ˢ range n8)
    (f := fun x y => F x.1 x.2.1 x.2.2.1 x.2.2.2.1 x.2.2.2.2.1 x.2.2.2.2.2 y.1 y.2 k k' q q')
  simp only [Finset.sum_product] at h2
  rw [h2]
  refine sum_congr rfl fun c _ => sum_congr rfl fun c' _ => sum_congr rfl fun i _ => sum_congr rfl fun i' _ => ?_
  have h3 := Finset.sum_comm (s := range n3 ×ˢ range n4) (t := range n5)
    (f := fun x y => ∑ β' ∈ range n6, F i i' x.1 x.2 y β' c c' k k' q q')
  simp only [Finset.sum_product] at h3
  exact h3

/-- The form of a small chain with absorbed blocks is the form of the whole chain on padded states. -/
theorem hform_pad {lb rb lb' rb' : Env ℂ} {A B : List (Ten ℂ)} {WA WB mpo : List (Mpo ℂ)} {ds : List ℕ}
    (hA : IsL lb A WA A lb') (hB : IsR rb B WB B rb') (hm : MLinked lb'.m mpo rb'.m) (hlen : mpo.length = ds.length) (f g : Amp) :
    hform lb (WA ++ (mpo ++ WB)) rb (A.map Ten.d ++ (ds ++ B.map Ten.d)) (padAmp A B lb'.u rb'.u f) (padAmp A B lb'.w rb'.w g)
      = hform lb' mpo rb' ds f g := by
  have lA := (fits_length hA.fits).1
  have lB := (fits_length hB.fits).1
  let X : List ℕ → List ℕ → ℕ → ℕ → ℕ → ℂ := fun a a' k q c => ∑ i ∈ range lb.u, ∑ i' ∈ range lb.w, ∑ β ∈ range lb.m,
    lb.v i i' β * chain A a i k * mchain WA a a' β c * star (chain A a' i' q)
  let Y : List ℕ → List ℕ → ℕ → ℕ → ℕ → ℂ := fun b b' k q c => ∑ j ∈ range rb.u, ∑ j' ∈ range rb.w, ∑ β ∈ range rb.m,
    rb.v j j' β * chain B b k j * mchain WB b b' c β * star (chain B b' q j')
  have key : ∀ a, Conf (A.map Ten.d) a → ∀ s, Conf ds s → ∀ b, Conf (B.map Ten.d) b → ∀ a', Conf (A.map Ten.d) a' → ∀ s', Conf ds s' →
      ∀ b', Conf (B.map Ten.d) b' →
      (∑ i ∈ range lb.u, ∑ i' ∈ range lb.w, ∑ j ∈ range rb.u, ∑ j' ∈ range rb.w,
        helem lb (WA ++ (mpo ++ WB)) rb (a ++ (s ++ b)) (a' ++ (s' ++ b')) i i' j j' * padAmp A B lb'.u rb'.u f (a ++ (s ++ b)) i j *
          star (padAmp A B lb'.w rb'.w g (a' ++ (s' ++ b')) i' j'))
      = ∑ k ∈ range lb'.u, ∑ q ∈ range lb'.w, ∑ k' ∈ range rb'.u, ∑ q' ∈ range rb'.w, ∑ c ∈ range lb'.m, ∑ c' ∈ range rb'.m,
          X a a' k q c * Y b b' k' q' c' * (mchain mpo s s' c c' * f s k k' * star (g s' q q')) := by
    intro a ha s hs b hb a' ha' s' hs' b' hb'
    have la : a.length = A.length := by have := ha.length_eq; simpa using this.symm
    have la' : a'.length = A.length := by have := ha'.length_eq; simpa using this.symm
    have lb1 : b.length = B.length := by have := hb.length_eq; simpa using this.symm
    have lb1' : b'.length = B.length := by have := hb'.length_eq; simpa using this.symm
    have ls : s.length = mpo.length := by rw [hlen]; exact hs.length_eq.symm
    have ls' : s'.length = mpo.length := by rw [hlen]; exact hs'.length_eq.symm
    have e1 : ∀ i ∈ range lb.u, ∀ i' ∈ range lb.w, ∀ j ∈ range rb.u, ∀ j' ∈ range rb.w,
        helem lb (WA ++ (mpo ++ WB)) rb (a ++ (s ++ b)) (a' ++ (s' ++ b')) i i' j j' * padAmp A B lb'.u rb'.u f (a ++ (s ++ b)) i j *
          star (padAmp A B lb'.w rb'.w g (a' ++ (s' ++ b')) i' j')
        = ∑ β ∈ range lb.m, ∑ β' ∈ range rb.m, ∑ c ∈ range lb'.m, ∑ c' ∈ range rb'.m, ∑ k ∈ range lb'.u, ∑ k' ∈ range rb'.u,
            ∑ q ∈ range lb'.w, ∑ q' ∈ range rb'.w,
            (lb.v i i' β * (mchain WA a a' β c * (mchain mpo s s' c c' * mchain WB b b' c' β')) * rb.v j j' β') *
              (chain A a i k * f s k k' * chain B b k' j) * (star (chain A a' i' q) * star (g s' q q') * star (chain B b' q' j')) := by
      intro i _ i' _ j _ j' _
      rw [padAmp_cfg la lb1, padAmp_cfg la' lb1', star_sum, sum_congr rfl fun q _ => star_sum _ _]
      have e2 : helem lb (WA ++ (mpo ++ WB)) rb (a ++ (s ++ b)) (a' ++ (s' ++ b')) i i' j j'
          = ∑ β ∈ range lb.m, ∑ β' ∈ range rb.m, ∑ c ∈ range lb'.m, ∑ c' ∈ range rb'.m,
            lb.v i i' β * (mchain WA a a' β c * (mchain mpo s s' c c' * mchain WB b b' c' β')) * rb.v j j' β' := by
        unfold helem
        refine sum_congr rfl fun β hβ => sum_congr rfl fun β' _ => ?_
        rw [mchain_append hA.m a a' (s ++ b) (s' ++ b') (by omega) (by omega) (mem_range.mp hβ), mul_sum, sum_mul]
        refine sum_congr rfl fun c hc => ?_
        rw [mchain_append hm s s' b b' ls ls' (mem_range.mp hc), mul_sum, mul_sum, sum_mul]
      rw [e2]
      simp only [star_mul']
      exact pad_prod _ _ _
    rw [sum_congr rfl fun i hi => sum_congr rfl fun i' hi' => sum_congr rfl fun j hj => sum_congr rfl fun j' hj' => e1 i hi i' hi' j hj j' hj',
      pad_reorder]
    refine sum_congr rfl fun k _ => sum_congr rfl fun q _ => sum_congr rfl fun k' _ => sum_congr rfl fun q' _ =>
      sum_congr rfl fun c _ => sum_congr rfl fun c' _ => ?_
    simp only [X, Y]
    rw [pad_prod']
    refine sum_congr rfl fun i _ => sum_congr rfl fun i' _ => sum_congr rfl fun β _ => sum_congr rfl fun j _ => sum_congr rfl fun j' _ =>
      sum_congr rfl fun β' _ => ?_
    ring
  unfold hform
  simp only [sumCfg_append]
  rw [sumCfg_congr fun a ha => sumCfg_congr fun s hs => sumCfg_congr fun b hb => sumCfg_congr fun a' ha' => sumCfg_congr fun s' hs' =>
    sumCfg_congr fun b' hb' => key a ha s hs b hb a' ha' s' hs' b' hb']
  -- bring the configurations of the middle to the front
  rw [sumCfg_comm]
  refine sumCfg_congr fun s _ => ?_
  have o1 : ∀ (G : List ℕ → List ℕ → List ℕ → List ℕ → List ℕ → ℂ),
      sumCfg (A.map Ten.d) (fun a => sumCfg (B.map Ten.d) fun b => sumCfg (A.map Ten.d) fun a' => sumCfg ds fun s' =>
        sumCfg (B.map Ten.d) fun b' => G a b a' s' b')
      = sumCfg ds fun s' => sumCfg (A.map Ten.d) fun a => sumCfg (A.map Ten.d) fun a' => sumCfg (B.map Ten.d) fun b =>
        sumCfg (B.map Ten.d) fun b' => G a b a' s' b' := by
    intro G
    rw [sumCfg_comm ds]
    refine sumCfg_congr fun a _ => ?_
    rw [sumCfg_comm ds, sumCfg_comm]
    refine sumCfg_congr fun a' _ => ?_
    rw [sumCfg_comm ds]
  rw [o1]
  refine sumCfg_congr fun s' _ => ?_
  simp only [sumCfg_sum, sumCfg_mul_right, sumCfg_mul]
  refine sum_congr rfl fun k hk => sum_congr rfl fun q hq => sum_congr rfl fun k' hk' => sum_congr rfl fun q' hq' => ?_
  unfold helem
  rw [sum_mul, sum_mul]
  refine sum_congr rfl fun c hc => ?_
  rw [sum_mul, sum_mul]
  refine sum_congr rfl fun c' hc' => ?_
  rw [hA.v k (mem_range.mp hk) q (mem_range.mp hq) c (mem_range.mp hc), hB.v k' (mem_range.mp hk') q' (mem_range.mp hq') c' (mem_range.mp hc')]
  unfold contrL contrR
  simp only [X, Y]
  ring

/-- Isometric ends do not change the norm. -/
theorem nsq_pad {l r n n' : ℕ} {A B : List (Ten ℂ)} {ds : List ℕ} (hA : Linked l A n) (hB : Linked n' B r)
    (ol : ∀ t ∈ A, LeftOrth t) (or : ∀ t ∈ B, RightOrth t) (f : Amp) :
    nsq (A.map Ten.d ++ (ds ++ B.map Ten.d)) l r (padAmp A B n n' f) = nsq ds n n' f := by
  have hstar : ∀ z : ℂ, ((Complex.normSq z : ℝ) : ℂ) = star z * z := by
    intro z; rw [Complex.normSq_eq_conj_mul_self]; rfl
  apply Complex.ofReal_injective
  unfold nsq
  rw [sumCfg_ofReal, sumCfg_ofReal, sumCfg_append]
  simp only [sumCfg_append]
  rw [sumCfg_comm]
  refine sumCfg_congr fun s _ => ?_
  push_cast
  simp only [hstar]
  rw [← collapse hA hB ol or (fun k k' => f s k k') (fun k k' => f s k k')]
  refine sumCfg_congr fun a ha => sumCfg_congr fun b hb => sum_congr rfl fun i _ => sum_congr rfl fun j _ => ?_
  rw [padAmp_cfg (by have := ha.length_eq; simpa using this.symm) (by have := hb.length_eq; simpa using this.symm)]

theorem sumCfg_if {ds s : List ℕ} (hs : Conf ds s) (F : List ℕ → ℂ) :
    sumCfg ds (fun t => if t = s then F t else 0) = F s := by
  induction hs generalizing F with
  | nil => simp [sumCfg]
  | @cons d x ds s hx hs ih =>
    simp only [sumCfg]
    rw [sum_eq_single x]
    · have := ih fun t => F (x :: t)
      simpa using this
    · intro y _ hy
      rw [sumCfg_congr (g := fun _ => 0), sumCfg_zero]
      intro t _
      rw [if_neg]
      intro h; exact hy (List.cons.inj h).1
    · intro h; exact absurd (mem_range.mpr hx) h

/-- Spec: the state with one amplitude. -/
def unitAmp (s0 : List ℕ) (i0 j0 : ℕ) : Amp := fun s i j => if s = s0 then delta ℂ i0 i * delta ℂ j0 j else 0

theorem hform_unit {lb rb : Env ℂ} {mpo : List (Mpo ℂ)} {ds s s' : List ℕ} {i i' j j' : ℕ} (hs : Conf ds s) (hs' : Conf ds s')
    (hi : i < lb.u) (hi' : i' < lb.w) (hj : j < rb.u) (hj' : j' < rb.w) :
    hform lb mpo rb ds (unitAmp s i j) (unitAmp s' i' j') = helem lb mpo rb s s' i i' j j' := by
  have hd : ∀ a b : ℕ, star (delta ℂ a b) = delta ℂ a b := by
    intro a b; unfold delta; split_ifs <;> simp
  have e : ∀ t t', (∑ a ∈ range lb.u, ∑ a' ∈ range lb.w, ∑ b ∈ range rb.u, ∑ b' ∈ range rb.w,
      helem lb mpo rb t t' a a' b b' * unitAmp s i j t a b * star (unitAmp s' i' j' t' a' b'))
      = if t' = s' then (if t = s then helem lb mpo rb t t' i i' j j' else 0) else 0 := by
    intro t t'
    unfold unitAmp
    by_cases h1 : t = s
    · by_cases h2 : t' = s'
      · simp only [if_pos h1, if_pos h2, star_mul', hd]
        have e2 : ∀ a a' b b', helem lb mpo rb t t' a a' b b' * (delta ℂ i a * delta ℂ j b) * (delta ℂ i' a' * delta ℂ j' b')
            = delta ℂ i a * (delta ℂ i' a' * (delta ℂ j b * (delta ℂ j' b' * helem lb mpo rb t t' a a' b b'))) := by
          intros; ring
        simp only [e2, ← mul_sum]
        rw [sum_delta_left hi, sum_delta_left hi', sum_delta_left hj, sum_delta_left hj']
      · simp [h2]
    · simp [h1]
  unfold hform
  simp only [e]
  rw [sumCfg_congr fun t _ => sumCfg_if hs' (fun t' => if t = s then helem lb mpo rb t t' i i' j j' else 0)]
  exact sumCfg_if hs fun t => helem lb mpo rb t s' i i' j j'

/-- If the operator of the whole chain is Hermitian, so is that of the small chain with absorbed blocks. -/
theorem hermH_pad {lb rb lb' rb' : Env ℂ} {A B : List (Ten ℂ)} {WA WB mpo : List (Mpo ℂ)} {ds : List ℕ}
    (hA : IsL lb A WA A lb') (hB : IsR rb B WB B rb') (hm : MLinked lb'.m mpo rb'.m) (hlen : mpo.length = ds.length)
    (hH : HermH lb (WA ++ (mpo ++ WB)) rb (A.map Ten.d ++ (ds ++ B.map Ten.d))) : HermH lb' mpo rb' ds := by
  have h1 : lb'.w = lb'.u := linked_rdim_unique hA.w (hH.lw ▸ hA.u)
  have h2 : rb'.w = rb'.u := by
    have a := hB.w
    rw [hH.rw] at a
    have b := hB.u
    cases B with
    | nil => exact Eq.trans a (Eq.symm b)
    | cons t B => exact a.1.symm.trans b.1
  refine ⟨h1, h2, fun s s' hs hs' i hi i' hi' j hj j' hj' => ?_⟩
  rw [← hform_unit hs hs' hi (h1.symm ▸ hi') hj (h2.symm ▸ hj'), ← hform_unit hs' hs hi' (h1.symm ▸ hi) hj' (h2.symm ▸ hj),
    ← hform_pad hA hB hm hlen, ← hform_pad hA hB hm hlen, h1, h2, hform_star hH]

end
end PyTeN
