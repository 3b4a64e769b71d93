import Verif.Mps.RegaugeAlg
import Mathlib.LinearAlgebra.Matrix.Trace
import Mathlib.LinearAlgebra.Eigenspace.Triangularizable

/-! # Lemmas for `regaugeIMPS`: end tensors, density matrices and the leading eigenvector -/

namespace PyTeN.Regauge
open Finset Transfer Lanczos Idmrg Matrix
noncomputable section

/-! ## End tensors -/

theorem first_absorb {l r : ℕ} {ts : List (Ten ℂ)} (hl : Linked l ts r) (hne : ts ≠ []) {X : Mat ℂ} (hX : X.c = l) :
    ∃ ts', onFirst (absorbL X) ts = .ok ts' ∧ Linked X.r ts' r ∧ ts' ≠ [] ∧ ts'.map Ten.d = ts.map Ten.d ∧
      (∀ s i j, ts.length = s.length → chain ts' s i j = mmul l X.v (chain ts s) i j) ∧
      ∀ b, X.r ≤ b → (∀ u ∈ ts, u.l ≤ b ∧ u.r ≤ b) → ∀ u ∈ ts', u.l ≤ b ∧ u.r ≤ b := by
  obtain ⟨t, Q, rfl⟩ := List.exists_cons_of_ne_nil hne
  obtain ⟨h1, h2⟩ := hl
  obtain ⟨t', ht⟩ : ∃ t', absorbL X t = .ok t' := ⟨_, absorbL_ok (by rw [hX, h1])⟩
  have e := absorbL_eq ht
  refine ⟨t' :: Q, by simp [onFirst, ht], ⟨by rw [e.2], by rw [e.2]; exact h2⟩, by simp, by simp [e.2], ?_, ?_⟩
  · intro s i j hs
    obtain ⟨x, ss, rfl⟩ : ∃ x ss, s = x :: ss := List.exists_cons_of_length_pos (by rw [← hs]; simp)
    rw [chain_absorbL ht, hX]; rfl
  · intro b hb h0 u hu
    rcases List.mem_cons.1 hu with rfl | h'
    · exact ⟨by rw [e.2]; exact hb, by rw [e.2]; exact (h0 t (by simp)).2⟩
    · exact h0 u (by simp [h'])

theorem last_absorb {l r : ℕ} {ts : List (Ten ℂ)} (hl : Linked l ts r) (hne : ts ≠ []) {Y : Mat ℂ} (hY : Y.r = r) :
    ∃ ts', onLast (fun t => absorbR t Y) ts = .ok ts' ∧ Linked l ts' Y.c ∧ ts' ≠ [] ∧ ts'.map Ten.d = ts.map Ten.d ∧
      (∀ s, ts.length = s.length → ∀ i < l, ∀ j < Y.c, chain ts' s i j = mmul r (chain ts s) Y.v i j) ∧
      ∀ b, Y.c ≤ b → (∀ u ∈ ts, u.l ≤ b ∧ u.r ≤ b) → ∀ u ∈ ts', u.l ≤ b ∧ u.r ≤ b := by
  obtain ⟨P, t, rfl⟩ : ∃ P t, ts = P ++ [t] := by
    rcases List.eq_nil_or_concat ts with h0 | ⟨a, y, h0⟩
    · exact absurd h0 hne
    · exact ⟨a, y, by rw [h0, List.concat_eq_append]⟩
  obtain ⟨k, h1, h2, h3⟩ := linked_append_iff.1 hl
  have h2 : t.l = k := h2
  have h3 : t.r = r := h3
  subst h2
  obtain ⟨t', ht⟩ : ∃ t', absorbR t Y = .ok t' := ⟨_, absorbR_ok (by rw [hY, h3])⟩
  have e := absorbR_eq ht
  refine ⟨P ++ [t'], onLast_append ht P, linked_append_iff.2 ⟨t'.l, by rw [e.2]; exact h1, rfl, by rw [e.2]; rfl⟩, by simp, by simp [e.2], ?_, ?_⟩
  · intro s hs i hi j hj
    have hsd : s = s.take P.length ++ s.drop P.length := (List.take_append_drop _ _).symm
    rw [List.length_append] at hs
    obtain ⟨x, hx⟩ : ∃ x, s.drop P.length = [x] := List.length_eq_one_iff.1 (by rw [List.length_drop, ← hs]; simp)
    rw [hsd, hx, chain_append_absorbR h1 ht _ (by rw [List.length_take, ← hs]; simp) x hi hj, hY]; rfl
  · intro b hb h0 u hu
    rcases List.mem_append.1 hu with h' | h'
    · exact h0 u (by simp [h'])
    · rw [List.mem_singleton.1 h', e.2]
      exact ⟨(h0 t (by simp)).1, hb⟩

theorem chain_scale {z : ℝ} : ∀ (ts : List (Ten ℂ)) (s : List ℕ) (i j : ℕ), chain (ts.map (divT z)) s i j = chain ts s i j / (z : ℂ) ^ ts.length
  | [], [], i, j => by simp [chain]
  | [], _ :: _, _, _ => by simp [chain]
  | _ :: _, [], _, _ => by simp [chain]
  | t :: ts, x :: ss, i, j => by
    simp only [List.map_cons, chain, List.length_cons, divT]
    rw [sum_div]
    refine sum_congr rfl fun k _ => ?_
    rw [chain_scale ts ss k j, pow_succ]
    rw [div_mul_div_comm, mul_comm ((z : ℂ))]

theorem linked_scale {z : ℝ} : ∀ {ts : List (Ten ℂ)} {l r : ℕ}, Linked l ts r → Linked l (ts.map (divT z)) r
  | [], _, _, h => h
  | _ :: _, _, _, h => ⟨h.1, linked_scale h.2⟩

theorem ds_scale (z : ℝ) (ts : List (Ten ℂ)) : (ts.map (divT z)).map Ten.d = ts.map Ten.d := by
  rw [List.map_map]; rfl

/-! ## Reduced density matrices -/

/-- Spec: a density matrix all of whose eigenvalues are larger than `pinv`. -/
structure Density (pinv : ℝ) (n : ℕ) (p : ℕ → ℕ → ℂ) : Prop where
  herm : ∀ i < n, ∀ j < n, star (p i j) = p j i
  tr : ∑ i ∈ range n, p i i = 1
  pos : ∀ x : ℕ → ℂ, ∑ i ∈ range n, Complex.normSq (x i) = 1 → pinv < (∑ i ∈ range n, ∑ j ∈ range n, star (x i) * p i j * x j).re

theorem sum_getD (l : List ℝ) : ∑ k ∈ range l.length, l.getD k 0 = l.sum := by
  induction l with
  | nil => rfl
  | cons a l ih => rw [List.length_cons, sum_range_succ', List.sum_cons, ← ih]; simp [add_comm]

theorem unitSum_one {w : List ℝ} (h : w.sum = 1) : unitSum w = .ok w := by
  unfold unitSum
  rw [h, if_neg one_ne_zero]
  simp

theorem cleanEig_pos {pinv : ℝ} (hp : 0 ≤ pinv) {w : List ℝ} (h : ∀ x ∈ w, pinv < x) (hs : w.sum = 1) :
    cleanEig pinv w = .ok (w, w.map fun x => 1 / x) := by
  have e1 : (w.map fun x => |x|) = w := by
    conv_rhs => rw [← List.map_id w]
    exact List.map_congr_left fun x hx => abs_of_pos (hp.trans_lt (h x hx))
  have e2 : (w.map fun x => if x < pinv then 0 else x) = w := by
    conv_rhs => rw [← List.map_id w]
    exact List.map_congr_left fun x hx => by rw [if_neg (not_lt.2 (h x hx).le)]; rfl
  have e3 : (w.map fun x => if x > pinv then 1 / x else 0) = w.map fun x => 1 / x :=
    List.map_congr_left fun x hx => by rw [if_pos (h x hx)]
  simp only [cleanEig, e1, unitSum_one hs, e2, e3]

/-- Result of the treatment of a fixed point: the spectral decomposition of the density matrix. -/
structure Spectral (pinv : ℝ) (n : ℕ) (p : ℕ → ℕ → ℂ) (w wi : List ℝ) (u : Mat ℂ) : Prop where
  len : w.length = n
  big : ∀ x ∈ w, pinv < x
  sum : w.sum = 1
  inv : wi = w.map fun x => 1 / x
  r : u.r = n
  c : u.c = n
  iso : (toM n u.v)ᴴ * toM n u.v = 1
  eq : toM n p = toM n u.v * diagonal (fun k : Fin n => ((w.getD k 0 : ℝ) : ℂ)) * (toM n u.v)ᴴ

theorem density_spec {eigh : Eigh} (he : EighSpec eigh) {pinv : ℝ} (hp0 : 0 ≤ pinv) {n : ℕ} {v : Vec ℂ} {f p : ℕ → ℕ → ℂ} {c : ℂ} (hc : c ≠ 0)
    (hv : IsMat v n f) (hf : ∀ i < n, ∀ j < n, f i j = c * p i j) (hp : Density pinv n p) :
    ∃ w wi u, density eigh pinv n v = .ok (w, wi, u) ∧ Spectral pinv n p w wi u := by
  have htr : ∑ i ∈ range n, v.v (i * n + i) = c := by
    rw [sum_congr rfl fun i hi => by rw [hv.2 i (mem_range.1 hi) i (mem_range.1 hi), hf i (mem_range.1 hi) i (mem_range.1 hi)], ← mul_sum, hp.tr, mul_one]
  unfold density reshape2
  rw [if_pos hv.1]
  simp only [htr, if_neg hc]
  set h : Mat ℂ := ⟨n, n, fun i j => (v.v (i * n + j) / c + star (v.v (j * n + i) / c)) / 2⟩ with hh
  have hent : ∀ i < n, ∀ j < n, h.v i j = p i j := by
    intro i hi j hj
    simp only [hh]
    rw [hv.2 i hi j hj, hv.2 j hj i hi, hf i hi j hj, hf j hj i hi, mul_div_cancel_left₀ _ hc, mul_div_cancel_left₀ _ hc, hp.herm j hj i hi]
    ring
  obtain ⟨e1, -, e3, e4, e5, e6⟩ := he h rfl (fun i hi j hj => by
    rw [hent i hi j hj, hent j hj i hi]; exact hp.herm i hi j hj)
  have e1 : (eigh h).1.length = n := e1
  have hiso : (toM n (eigh h).2.v)ᴴ * toM n (eigh h).2.v = 1 := by
    ext i j
    rw [Matrix.mul_apply, ← toM_delta]
    have := e5 i i.2 j j.2
    rw [show h.r = n from rfl, Finset.sum_range] at this
    exact this
  have heq : toM n p = toM n (eigh h).2.v * diagonal (fun k : Fin n => (((eigh h).1.getD k 0 : ℝ) : ℂ)) * (toM n (eigh h).2.v)ᴴ := by
    have : toM n p * toM n (eigh h).2.v = toM n (eigh h).2.v * diagonal (fun k : Fin n => (((eigh h).1.getD k 0 : ℝ) : ℂ)) := by
      ext i k
      rw [Matrix.mul_diagonal, Matrix.mul_apply]
      have := e6 k k.2 i i.2
      rw [show h.r = n from rfl, Finset.sum_range] at this
      simp only [toM]
      rw [mul_comm, ← this]
      exact sum_congr rfl fun j _ => by rw [hent i i.2 j j.2]
    rw [← this, Matrix.mul_assoc, mul_eq_one_comm.1 hiso, Matrix.mul_one]
  have hsum : (eigh h).1.sum = 1 := by
    have h1 : (toM n p).trace = 1 := by
      rw [← hp.tr, Finset.sum_range]; rfl
    rw [heq, Matrix.trace_mul_comm, ← Matrix.mul_assoc, hiso, Matrix.one_mul, Matrix.trace_diagonal] at h1
    rw [← sum_getD, e1, Finset.sum_range]
    exact_mod_cast h1
  have hbig : ∀ x ∈ (eigh h).1, pinv < x := by
    intro x hx
    obtain ⟨k, hk, rfl⟩ := List.getElem_of_mem hx
    have hkn : k < n := by rw [← e1]; exact hk
    have h1 : ∑ i ∈ range n, Complex.normSq ((eigh h).2.v i k) = 1 := by
      have := e5 k hkn k hkn
      rw [show delta ℂ k k = 1 by simp [delta]] at this
      have h2 : ∀ i, (starRingEnd ℂ) ((eigh h).2.v i k) * (eigh h).2.v i k = ((Complex.normSq ((eigh h).2.v i k) : ℝ) : ℂ) := fun i =>
        (Complex.normSq_eq_conj_mul_self).symm
      simp_rw [h2] at this
      exact_mod_cast this
    have h2 := hp.pos (fun i => (eigh h).2.v i k) h1
    have h3 : ∑ i ∈ range n, ∑ j ∈ range n, star ((eigh h).2.v i k) * p i j * (eigh h).2.v j k = (((eigh h).1.getD k 0 : ℝ) : ℂ) := by
      have : ∀ i ∈ range n, ∑ j ∈ range n, star ((eigh h).2.v i k) * p i j * (eigh h).2.v j k
          = (((eigh h).1.getD k 0 : ℝ) : ℂ) * ((Complex.normSq ((eigh h).2.v i k) : ℝ) : ℂ) := by
        intro i hi
        have h4 := e6 k hkn i (mem_range.1 hi)
        rw [normSq_of]
        simp_rw [mul_assoc, ← mul_sum]
        rw [sum_congr rfl fun j hj => by rw [← hent i (mem_range.1 hi) j (mem_range.1 hj)]]
        rw [show ∑ j ∈ range n, h.v i j * (eigh h).2.v j k = _ from h4]
        ring
      rw [sum_congr rfl this, ← mul_sum]
      have h5 : (∑ i ∈ range n, ((Complex.normSq ((eigh h).2.v i k) : ℝ) : ℂ)) = 1 := by exact_mod_cast h1
      rw [h5, mul_one]
    rw [h3, Complex.ofReal_re] at h2
    simpa [List.getD_eq_getElem?_getD, hk] using h2
  rw [cleanEig_pos hp0 hbig hsum]
  exact ⟨_, _, _, rfl, e1, hbig, hsum, rfl, e3, e4, hiso, heq⟩

end
end PyTeN.Regauge
