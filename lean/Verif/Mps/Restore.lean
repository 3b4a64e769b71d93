import Verif.Mps.Trunc
import Verif.Mps.Gates2

/-! # Moving the position back does not change `Z` -/

namespace PyTeN
open Finset

noncomputable section

theorem absorbL_sq {t t' : Ten ℂ} {m : Mat ℂ} (h : absorbL m t = .ok t') (ho : RightOrth t)
    (hm : normF m = 1) : t'.sq = 1 := by
  obtain ⟨h1, rfl⟩ := absorbL_eq h
  have := sq_mul_rightOrth (f := ⟨m.r, t.r, t.d, fun i j s => ∑ k ∈ range t.l, m.v i k * t.v k j s⟩)
    (m := m) ho h1.symm rfl rfl rfl 1 (by intro i _ j _ s _; simp only [one_mul]; rw [h1])
  rw [this, hm]; simp

theorem ExactR.z_one {t a : Ten ℂ} {m : Mat ℂ} {z : ℝ} (h : ExactR t a m z) (ht : t.sq = 1) : z = 1 := by
  have h1 : t.sq = normF (⟨m.r, m.c, fun i j => (z : ℂ) * m.v i j⟩ : Mat ℂ) ^ 2 := by
    have := sq_leftOrth_mul (m := ⟨m.r, m.c, fun i j => (z : ℂ) * m.v i j⟩)
      (f := ⟨t.l, t.r, t.d, fun i j s => ∑ k ∈ range a.r, a.v i k s * ((z : ℂ) * m.v k j)⟩)
      h.orth h.r h.l.symm h.c.symm h.d.symm (fun _ _ _ _ _ _ => rfl)
    rw [← this]
    unfold Ten.sq
    refine sum_congr rfl fun i hi => sum_congr rfl fun j hj => sum_congr rfl fun s hs => ?_
    rw [h.prod i (mem_range.mp hi) j (mem_range.mp hj) s (mem_range.mp hs), mul_sum, h.r]
    congr 1
    refine sum_congr rfl fun k _ => ?_
    ring
  rw [normF_sq] at h1
  simp only [Complex.normSq_mul, Complex.normSq_ofReal, ← mul_sum] at h1
  rw [← normF_sq, h.norm, ht] at h1
  have := h.zpos
  nlinarith

theorem sweepR_Zback {cut : Ten ℂ → Res (Ten ℂ × Mat ℂ × ℝ)}
    (hcut : ∀ t a m z, cut t = .ok (a, m, z) → ExactR t a m z) :
    ∀ (C0 : List (Ten ℂ)) (A : List (Ten ℂ)) (t : Ten ℂ) (B : List (Ten ℂ)) (m0 : Mat ℂ) (Z : ℂ)
      (w : Sweep), (∀ c ∈ C0, RightOrth c) → t.sq = 1 →
      sweepR cut (A.length + C0.length + 1) (C0.length + 1) A.length ⟨A ++ t :: C0 ++ B, m0, Z⟩
        = .ok w → w.Z = Z := by
  intro C0
  induction C0 with
  | nil =>
    intro A t B m0 Z w _ ht h
    simp only [List.length_nil, Nat.add_zero, sweepR, List.append_assoc, List.cons_append, List.nil_append,
      getT_append] at h
    split at h
    · cases h
    rename_i a m z hc
    have hz := (hcut _ _ _ _ hc).z_one ht
    rw [if_neg (by omega)] at h
    simp only [Except.ok.injEq] at h
    subst h
    simp [hz]
  | cons t1 C0 ih =>
    intro A t B m0 Z w ho ht h
    rw [show (t1 :: C0).length + 1 = (C0.length + 1) + 1 by simp] at h
    rw [sweepR] at h
    simp only [List.append_assoc, List.cons_append, getT_append] at h
    split at h
    · cases h
    rename_i a m z hc
    have hz := (hcut _ _ _ _ hc).z_one ht
    have hE := hcut _ _ _ _ hc
    rw [if_pos (by simp)] at h
    simp only [set_append] at h
    have e1 : A ++ a :: t1 :: (C0 ++ B) = (A ++ [a]) ++ t1 :: (C0 ++ B) := by simp
    have e2 : A.length + 1 = (A ++ [a]).length := by simp
    rw [e1, getT_append' _ _ _ e2] at h
    simp only at h
    split at h
    · cases h
    rename_i t1' ht1
    rw [set_append' _ _ _ _ e2] at h
    have h3 := ih (A ++ [a]) t1' B m (Z * (z : ℂ)) w (fun c hc => ho c (by simp [hc]))
      (absorbL_sq ht1 (ho t1 (by simp)) hE.norm)
    have h4 := h3 (by
      rw [← h]
      simp only [List.length_append, List.length_cons, List.length_nil, List.append_assoc, List.cons_append,
        List.nil_append]
      congr 1
      omega)
    rw [h4, hz]; simp

/-- Moving away and back leaves `Z` as it was after the first move. -/
theorem position_back {O : LinAlg} (hO : O.Spec) {m m1 m2 : MPS} {l r b : ℕ} (hs : m.sth < 1e-15)
    (hM : Moved m m1 l r b) (h : m1.position O m.pos = .ok m2) (hp : m.pos ≤ m.N) : m2.Z = m1.Z := by
  have hw := hM.wf
  have hs1 : m1.effSth 1e-16 < 1e-15 := effSth_default (by rw [hM.sth]; exact hs)
  unfold MPS.position at h
  rw [if_neg (by rw [hM.N]; simp; omega), if_neg (by simp)] at h
  simp only [Int.toNat_natCast] at h
  rcases lt_trichotomy b m.pos with hb | hb | hb
  · -- moved left first, now right
    have hpos := hM.pos
    obtain ⟨A, t, C0, B, hts, hA, hlen⟩ := tensors_split m1 hw (b := m.pos) (by omega) (by rw [hM.N]; exact hp)
    rw [if_neg (by omega), if_pos (by omega)] at h
    have hg : getT m1.tensors m1.pos = .ok t := by
      rw [hts, List.append_assoc]; exact getT_append' _ _ _ hA.symm
    rw [hg] at h
    simp only at h
    split at h
    · cases h
    rename_i t' ht'
    have hset : m1.tensors.set m1.pos t' = A ++ t' :: C0 ++ B := by
      rw [hts, List.append_assoc]
      exact (set_append' A t t' (C0 ++ B) hA.symm).trans (by simp)
    split at h
    · cases h
    rename_i w hsw
    simp only [Except.ok.injEq] at h
    have e2 : m.pos - m1.pos = C0.length + 1 := by omega
    rw [hset, e2, ← hA, ← hlen] at hsw
    have ho : ∀ k (hk : k < (t :: C0).length), RightOrth (t :: C0)[k] := by
      intro k hk
      simp only [List.length_cons] at hk
      refine hM.right (A.length + k) _ ?_ (by omega) (by omega)
      rw [hts, List.getElem?_append_left (by simp; omega), List.getElem?_append_right (by omega)]
      simp only [Nat.add_sub_cancel_left]
      exact List.getElem?_eq_getElem _
    have hot : RightOrth t := ho 0 (by simp)
    have hoC : ∀ c ∈ C0, RightOrth c := by
      intro c hc
      obtain ⟨k, hk, rfl⟩ := List.mem_iff_getElem.mp hc
      exact ho (k + 1) (by simp; omega)
    rw [← h]
    exact sweepR_Zback (cutR_exact hO hs1) C0 A t' B m1.mat m1.Z w hoC
      (absorbL_sq ht' hot (hM.norm (by omega))) hsw
  · rw [if_pos (by rw [hM.pos, hb])] at h
    simp only [Except.ok.injEq] at h
    rw [h]
  · have hpos := hM.pos
    obtain ⟨A, C0, t, B, hts, hA, hlen⟩ := tensors_splitL m1 hw (b := m.pos) (by omega)
    have hlA : (A ++ C0 ++ [t]).length = m1.pos := by simp; omega
    have hts2 : m1.tensors = (A ++ C0 ++ [t]) ++ B := by rw [hts]; simp
    have htake : m1.tensors.take m1.pos = A ++ C0 ++ [t] := by rw [hts2, List.take_left' hlA]
    have hdrop : m1.tensors.drop m1.pos = B := by rw [hts2, List.drop_left' hlA]
    have hL := hw.left
    have hR := hw.right
    rw [htake, linked_append] at hL
    rw [hdrop] at hR
    obtain ⟨n, hL, rfl, hcm⟩ := hL
    have hcm : t.r = m1.mat.r := hcm
    rw [if_neg (by omega), if_neg (by omega)] at h
    have hlAC : m1.pos - 1 = (A ++ C0).length := by simp; omega
    have hg : getT m1.tensors (m1.pos - 1) = .ok t := by
      rw [hts]; exact getT_append' _ _ _ hlAC
    rw [hg] at h
    simp only at h
    split at h
    · cases h
    rename_i t' ht'
    obtain ⟨-, hte⟩ := absorbR_eq ht'
    have hset : m1.tensors.set (m1.pos - 1) t' = A ++ C0 ++ t' :: B := by
      rw [hts]; exact set_append' (A ++ C0) t t' B hlAC
    have hlinked : Linked l (A ++ C0 ++ t' :: B) r := by
      rw [linked_append]
      exact ⟨t.l, hL, by rw [hte], by rw [hte]; exact hR⟩
    split at h
    · cases h
    rename_i w hsw
    simp only [Except.ok.injEq] at h
    have e2 : m1.pos - m.pos = C0.length + 1 := by omega
    rw [hset, e2, ← hA] at hsw
    have ho : ∀ k (hk : k < (C0 ++ [t]).length), LeftOrth (C0 ++ [t])[k] := by
      intro k hk
      simp only [List.length_append, List.length_cons, List.length_nil] at hk
      refine hM.left (A.length + k) _ ?_ (by omega) (by omega)
      rw [hts2, List.getElem?_append_left (by simp; omega), List.append_assoc,
        List.getElem?_append_right (by omega)]
      simp only [Nat.add_sub_cancel_left]
      exact List.getElem?_eq_getElem _
    have hot : LeftOrth t := by
      have := ho C0.length (by simp)
      simpa using this
    have hoC : ∀ c ∈ C0, LeftOrth c := by
      intro c hc
      obtain ⟨k, hk, rfl⟩ := List.mem_iff_getElem.mp hc
      have := ho k (by simp; omega)
      rwa [List.getElem_append_left hk] at this
    obtain ⟨C, -, hS⟩ := sweepL_trunc (fun t a m z hc => (cutL_exact hO hs1 t a m z hc).trunc) A C0 t' B m1.mat m1.Z w
      hlinked hsw
    obtain ⟨C', -, hS'⟩ := sweepL_ok (cutL_exact hO hs1) A C0 t' B m1.mat m1.Z w hlinked hsw
    rw [← h]
    apply hS.Zeq hoC (absorbR_sq ht' hot (hM.norm (by omega)))
    intro h0
    have := hS'.norm
    rw [normF, h0] at this
    simp at this

end

end PyTeN
