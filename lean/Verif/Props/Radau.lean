import Verif.Engine.Radau
import Verif.Props.Integrator

/-! # C123: the Radau integrators -/

namespace PyTeN.RadauInt

noncomputable section

/-! ## Specification -/

/-- Contract of `Radau`, with the error of the integration neglected: the dense output is the solution up to the time that is reached. -/
def RadauSpec (rad : Radau) : Prop := ∀ (ι : Type) [Fintype ι] (f : EuclideanSpace ℂ ι → EuclideanSpace ℂ ι) (K : NNReal),
  LipschitzWith K f → ∀ (u : ℝ → EuclideanSpace ℂ ι), (∀ s, HasDerivAt u (f (u s)) s) → ∀ t, 0 < t →
    0 < (rad ι f t (u 0)).1 ∧ (rad ι f t (u 0)).1 ≤ t ∧ ∀ s, 0 ≤ s → s ≤ (rad ι f t (u 0)).1 → (rad ι f t (u 0)).2 s = u s

/-- Spec: the first step reaches the end. -/
def OneStep (rad : Radau) (t : ℝ) : Prop :=
  ∀ (ι : Type) [Fintype ι] (f : EuclideanSpace ℂ ι → EuclideanSpace ℂ ι) (y : EuclideanSpace ℂ ι), (rad ι f t y).1 = t

/-! ## Properties -/

theorem exists_radau : ∃ rad : Radau, RadauSpec rad ∧ ∀ t, OneStep rad t := by
  obtain ⟨ivp, h⟩ := exists_ivp
  refine ⟨fun ι _ f t y => (t, fun s => ivp ι f s y), ?_, fun t ι _ f y => rfl⟩
  intro ι _ f K hf u hu t ht
  exact ⟨ht, le_rfl, fun s _ _ => h ι f K hf u hu s⟩

/-- One step is `solve_ivp`. -/
theorem radau_linear {rad : Radau} (h : RadauSpec rad) {t : ℝ} (ht : 0 < t) (h1 : OneStep rad t) {ι : Type} [Fintype ι]
    (H : EuclideanSpace ℂ ι →ₗ[ℂ] EuclideanSpace ℂ ι) (x : EuclideanSpace ℂ ι) :
    (rad ι (fun y => (-Complex.I) • H y) t x).2 t = expApply H (-Complex.I * t) x := by
  have hL : LipschitzWith ‖(-Complex.I) • LinearMap.toContinuousLinearMap H‖₊ fun y => (-Complex.I) • H y :=
    ((-Complex.I) • LinearMap.toContinuousLinearMap H).lipschitz
  have hd : ∀ s : ℝ, HasDerivAt (fun s : ℝ => expApply H (-Complex.I * s) x) ((-Complex.I) • H (expApply H (-Complex.I * s) x)) s := by
    intro s
    have e : HasDerivAt (fun s : ℝ => -Complex.I * (s : ℂ)) (-Complex.I) s := by
      simpa using (Complex.ofRealCLM.hasDerivAt (x := s)).const_mul (-Complex.I)
    exact (expApply_hasDerivAt H x (-Complex.I * s)).scomp s e
  have := h ι (fun y => (-Complex.I) • H y) _ hL (fun s : ℝ => expApply H (-Complex.I * s) x) hd t ht
  simp only [Complex.ofReal_zero, mul_zero, expApply_zero] at this
  exact this.2.2 t ht.le (h1 ι _ _).ge

/-- **C123 (violated).**  In the module as it is no call of the two functions returns, as `Radau` is not imported: a float raises NameError, any
other type TypeError. -/
theorem C123_violated (rad : Radau) (L : Env ℂ) (W : Mpo ℂ) (R : Env ℂ) (T : Ten ℂ) (C : Mat ℂ) (t : ℝ) :
    evolveTensorRadau imported rad L W R T (.float t) = .error .name ∧ evolveMatrixRadau imported rad L R C (.float t) = .error .name ∧
      evolveTensorRadau imported rad L W R T .other = .error .type ∧ evolveMatrixRadau imported rad L R C .other = .error .type := by
  have h : "Radau" ∉ imported := by simp [imported]
  refine ⟨?_, ?_, rfl, rfl⟩
  · rw [evolveTensorRadau, if_neg h]
  · rw [evolveMatrixRadau, if_neg h]

/-- **C123 (site), partial.**  With the name imported `evolveTensorRadau` applies `exp(-i·tau·H_eff)`, if the first step of the solver reaches the
end.  Missing: the import, and times for which more than one step is needed. -/
theorem C123_site_partial {names : List String} (hn : "Radau" ∈ names) {rad : Radau} (hR : RadauSpec rad) {L : Env ℂ} {W : Mpo ℂ} {R : Env ℂ} {T : Ten ℂ}
    (hf : SiteFits L W R T.l T.r T.d) {t : ℝ} (ht : 0 < t) (h1 : OneStep rad t) :
    ∃ X, evolveTensorRadau names rad L W R T (.float t) = .ok X ∧ X.l = T.l ∧ X.r = T.r ∧ X.d = T.d ∧
      X.vec T.l T.r T.d = expApply (siteOp L W R T.l T.r T.d) (-Complex.I * t) (T.vec T.l T.r T.d) := by
  unfold evolveTensorRadau
  simp only
  rw [if_pos hn, if_pos hf, haSite_eq hf]
  exact ⟨_, rfl, rfl, rfl, rfl, by rw [ten_vec, radau_linear hR ht h1]⟩

/-- **C123 (bond), partial.**  The same for `evolveMatrixRadau`. -/
theorem C123_bond_partial {names : List String} (hn : "Radau" ∈ names) {rad : Radau} (hR : RadauSpec rad) {L R : Env ℂ} {C : Mat ℂ}
    (hf : BondFits L R C.r C.c) {t : ℝ} (ht : 0 < t) (h1 : OneStep rad t) :
    ∃ X, evolveMatrixRadau names rad L R C (.float t) = .ok X ∧ X.r = C.r ∧ X.c = C.c ∧
      X.vec C.r C.c = expApply (bondOp L R C.r C.c) (-Complex.I * t) (C.vec C.r C.c) := by
  unfold evolveMatrixRadau
  simp only
  rw [if_pos hn, if_pos hf, haBond_eq hf]
  exact ⟨_, rfl, rfl, rfl, by rw [mat_vec, radau_linear hR ht h1]⟩

/-! ## Witnesses -/

/-- A block. -/
def b0 : Env ℂ := ⟨2, 2, 1, fun i j _ => if i = j then 1 else Complex.I⟩

/-- A centre matrix. -/
def c0 : Mat ℂ := ⟨2, 2, fun i j => if i = j then 1 else 2⟩

/-- A tensor. -/
def t0 : Ten ℂ := ⟨2, 2, 2, fun i j s => i + 2 * j + s⟩

/-- An operator. -/
def w0 : Mpo ℂ := ⟨1, 1, 2, 2, fun _ _ s t => if s = t then 0 else 1⟩

example : ∃ rad X, RadauSpec rad ∧ evolveTensorRadau ("Radau" :: imported) rad b0 w0 b0 t0 (.float 3) = .ok X ∧
    X.vec 2 2 2 = expApply (siteOp b0 w0 b0 2 2 2) (-Complex.I * (3 : ℝ)) (t0.vec 2 2 2) := by
  obtain ⟨rad, h, h1⟩ := exists_radau
  obtain ⟨X, hX, -, -, -, e⟩ := C123_site_partial (names := "Radau" :: imported) (by simp) h (L := b0) (W := w0) (R := b0) (T := t0)
    ⟨rfl, rfl, rfl, rfl, rfl, rfl, rfl, rfl⟩ (t := 3) (by norm_num) (h1 3)
  exact ⟨rad, X, h, hX, e⟩

example : ∃ rad X, RadauSpec rad ∧ evolveMatrixRadau ("Radau" :: imported) rad b0 b0 c0 (.float 3) = .ok X ∧
    X.vec 2 2 = expApply (bondOp b0 b0 2 2) (-Complex.I * (3 : ℝ)) (c0.vec 2 2) := by
  obtain ⟨rad, h, h1⟩ := exists_radau
  obtain ⟨X, hX, -, -, e⟩ := C123_bond_partial (names := "Radau" :: imported) (by simp) h (L := b0) (R := b0) (C := c0)
    ⟨rfl, rfl, rfl, rfl, rfl, rfl⟩ (t := 3) (by norm_num) (h1 3)
  exact ⟨rad, X, h, hX, e⟩

end

end PyTeN.RadauInt
