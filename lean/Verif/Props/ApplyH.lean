import Verif.Env.ApplyH
import Verif.Props.Environment

/-! # C121: `applyHsingleSite` -/

namespace PyTeN.ApplyH
open Finset

section
variable {K : Type*} [CommRing K] [StarRing K]

/-! ## Specification -/

/-- Spec: the scalar product with a tensor `B`. -/
def scalar (T B : Ten K) : K := ∑ i ∈ range T.l, ∑ j ∈ range T.r, ∑ s ∈ range T.d, T.v i j s * star (B.v i j s)

/-! ## Properties -/

/-- **C121 (spin 1/2).**  With the blocks of `getL` and `getR`, `applyHsingleSite` returns for every site of local dimension 2; the result has the
shape of the tensor, and its scalar product with the tensor is the full contraction. -/
theorem C121_site {mps : List (Ten K)} {mpo : List (Mpo K)} {lb rb : Env K} {Ls Rs : List (Env K)} (hlen : mpo.length = mps.length)
    (hL : getL mps mpo lb = .ok Ls) (hR : getR mps mpo rb = .ok Rs) {n : ℕ} (hn : n < mps.length) {L R : Env K} (h1 : (lb :: Ls)[n]? = some L)
    (h2 : (rb :: Rs)[mps.length - (n + 1)]? = some R) {A : Ten K} {W : Mpo K} (hA : mps[n]? = some A) (hW : mpo[n]? = some W) (hd : A.d = 2) :
    ∃ T, applyHsingleSite L W R A = .ok T ∧ T.l = A.l ∧ T.r = A.r ∧ T.d = A.d ∧ scalar T A = fullContr lb mps mpo mps rb := by
  obtain ⟨T, hT, t1, t2, t3, t4⟩ := C30_site hlen hL hR hn h1 h2 hA hW
  refine ⟨T, ?_, t1, t2, t3, t4⟩
  have hs : L.u = A.l ∧ A.d = W.din ∧ A.r = R.u := by
    unfold contractionH at hT
    split_ifs at hT with hs
    exact ⟨hs.1, hs.2.2.1, hs.2.2.2.1⟩
  rw [applyHsingleSite, if_neg (by simp [hd]), hT]
  simp only
  rw [if_pos (by rw [t1, t2, t3, hs.1, ← hs.2.1, ← hs.2.2])]

/-- **C121 (matrix elements).**  Whatever `applyHsingleSite` returns has as scalar product with any tensor of its shape the contraction of the
network with that tensor in the row below. -/
theorem C121_element {E F L R : Env K} {As Bs As' Bs' : List (Ten K)} {Ws Ws' : List (Mpo K)} (hL : IsL E As Ws Bs L) (hR : IsR F As' Ws' Bs' R)
    {A B T : Ten K} {W : Mpo K} (hBl : B.l = L.w) (hBr : B.r = R.w) (hBd : B.d = W.dout) (h : applyHsingleSite L W R A = .ok T) :
    scalar T B = fullContr E (As ++ A :: As') (Ws ++ W :: Ws') (Bs ++ B :: Bs') F := by
  rw [applyHsingleSite] at h
  split at h
  · cases h
  · split at h
    · cases h
    · next hT =>
      split at h
      · cases h
        exact C30_contractionH hL hR hBl hBr hBd hT
      · cases h

/-- **C121 (violated for other local dimensions).**  For every other local dimension AssertionError is raised, though the contraction exists. -/
theorem C121_violated_dim {mps : List (Ten K)} {mpo : List (Mpo K)} {lb rb : Env K} {Ls Rs : List (Env K)} (hlen : mpo.length = mps.length)
    (hL : getL mps mpo lb = .ok Ls) (hR : getR mps mpo rb = .ok Rs) {n : ℕ} (hn : n < mps.length) {L R : Env K} (h1 : (lb :: Ls)[n]? = some L)
    (h2 : (rb :: Rs)[mps.length - (n + 1)]? = some R) {A : Ten K} {W : Mpo K} (hA : mps[n]? = some A) (hW : mpo[n]? = some W) (hd : A.d ≠ 2) :
    applyHsingleSite L W R A = .error .assertion ∧ ∃ T, contractionH L A W R = .ok T ∧ scalar T A = fullContr lb mps mpo mps rb := by
  obtain ⟨T, hT, -, -, -, t4⟩ := C30_site hlen hL hR hn h1 h2 hA hW
  exact ⟨by rw [applyHsingleSite, if_pos hd], T, hT, t4⟩

end

/-! ## Witnesses -/

/-- A site of local dimension `d`. -/
def tn (d : ℕ) : Ten ℤ := ⟨1, 1, d, fun _ _ s => s + 1⟩

/-- An operator with off-diagonal elements. -/
def op (d : ℕ) : Mpo ℤ := ⟨1, 1, d, d, fun _ _ s t => s + 2 * t⟩

/-- A boundary. -/
def bd : Env ℤ := ⟨1, 1, 1, fun _ _ _ => 1⟩

theorem wL (d : ℕ) : ∃ Ls, getL [tn d, tn d] [op d, op d] bd = .ok Ls := by
  simp [getL, blocksR, addLayerR, tn, op, bd]

theorem wR (d : ℕ) : ∃ Rs, getR [tn d, tn d] [op d, op d] bd = .ok Rs := by
  simp [getR, blocksL, addLayerL, tn, op, bd]

theorem len_R {d : ℕ} {Rs : List (Env ℤ)} (h : getR [tn d, tn d] [op d, op d] bd = .ok Rs) : ∃ R, (bd :: Rs)[1]? = some R := by
  simp [getR, blocksL, addLayerL, tn, op, bd] at h
  subst h
  exact ⟨_, rfl⟩

example : ∃ R T, applyHsingleSite bd (op 2) R (tn 2) = .ok T ∧ scalar T (tn 2) = fullContr bd [tn 2, tn 2] [op 2, op 2] [tn 2, tn 2] bd := by
  obtain ⟨Ls, hL⟩ := wL 2
  obtain ⟨Rs, hR⟩ := wR 2
  obtain ⟨R, h⟩ := len_R hR
  obtain ⟨T, g, -, -, -, g'⟩ := C121_site (n := 0) rfl hL hR (by simp) rfl h rfl rfl rfl
  exact ⟨R, T, g, g'⟩

example : ∃ R, applyHsingleSite bd (op 3) R (tn 3) = .error .assertion ∧
    ∃ T, contractionH bd (tn 3) (op 3) R = .ok T ∧ scalar T (tn 3) = fullContr bd [tn 3, tn 3] [op 3, op 3] [tn 3, tn 3] bd := by
  obtain ⟨Ls, hL⟩ := wL 3
  obtain ⟨Rs, hR⟩ := wR 3
  obtain ⟨R, h⟩ := len_R hR
  exact ⟨R, C121_violated_dim (n := 0) rfl hL hR (by simp) rfl h rfl rfl (by simp [tn])⟩

end PyTeN.ApplyH
