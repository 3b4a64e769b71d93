import Verif.Engine.Dims
import Verif.Props.Idmrg

/-! # Bond dimensions in the update of the infinite-system engine -/

namespace PyTeN.Idmrg
open Finset

noncomputable section

/-- The arithmetic of the bond dimensions: `β` before the update, `α` after the sweep to the right, `γ`, `δ` after the sweeps to the
left, `ε` at the end. -/
theorem dims_arith {h : ℕ} (h1 : 1 ≤ h) {d β α γ δ ε : ℕ → ℕ} (hprod : ∏ i ∈ range h, d i = ∏ i ∈ range h, d (h + i))
    (hβ : ∀ x < 2 * h, β x ≤ d x * β (x + 1)) (hα : ∀ x < 2 * h, α (x + 1) = min (β (x + 1)) (d x * α x))
    (hγ : ∀ y < h, γ y = min (α (h + y)) (d (h + y) * γ (y + 1))) (hγN : γ h = β (2 * h))
    (hδ : ∀ x < h, δ x = min (α x) (d x * δ (x + 1))) (hδh : δ h = γ 0)
    (hε : ∀ y < h, ε y = min (α (h + y)) (d (h + y) * ε (y + 1))) (hεh : ε h = δ 0) : γ 0 = α h ∧ ε 0 = α h := by
  have hA : ∀ x, 1 ≤ x → x < 2 * h → α x ≤ d x * α (x + 1) := by
    intro x hx hx'
    have e1 : α x ≤ β x := by
      obtain ⟨y, rfl⟩ : ∃ y, x = y + 1 := ⟨x - 1, by omega⟩
      rw [hα y (by omega)]; exact min_le_left _ _
    have e2 := hβ x hx'
    rw [hα x hx']
    rcases Nat.eq_zero_or_pos (d x) with h0 | h0
    · rw [h0, zero_mul] at e2 ⊢; omega
    · rcases min_choice (β (x + 1)) (d x * α x) with hc | hc
      · rw [hc]; omega
      · rw [hc]
        calc α x ≤ d x * α x := Nat.le_mul_of_pos_left _ h0
          _ ≤ _ := Nat.le_mul_of_pos_left _ h0
  have hG : ∀ k ≤ h, α (h + (h - k)) ≤ γ (h - k) := by
    intro k
    induction k with
    | zero =>
      intro _
      rw [Nat.sub_zero, hγN, show h + h = (2 * h - 1) + 1 by omega, hα _ (by omega), show 2 * h - 1 + 1 = 2 * h by omega]
      exact min_le_left _ _
    | succ k ih =>
      intro hk
      have i1 := ih (by omega)
      rw [hγ (h - (k + 1)) (by omega), show h - (k + 1) + 1 = h - k by omega]
      refine le_min le_rfl ?_
      have := hA (h + (h - (k + 1))) (by omega) (by omega)
      rw [show h + (h - (k + 1)) + 1 = h + (h - k) by omega] at this
      exact this.trans (Nat.mul_le_mul_left _ i1)
  have hg0 : γ 0 = α h := by
    apply le_antisymm
    · rw [hγ 0 (by omega)]; exact min_le_left _ _
    · simpa using hG h le_rfl
  refine ⟨hg0, ?_⟩
  have hD : ∀ k < h, α (h - k) ≤ δ (h - k) := by
    intro k
    induction k with
    | zero => intro _; rw [Nat.sub_zero, hδh, hg0]
    | succ k ih =>
      intro hk
      have i1 := ih (by omega)
      rw [hδ (h - (k + 1)) (by omega), show h - (k + 1) + 1 = h - k by omega]
      refine le_min le_rfl ?_
      have := hA (h - (k + 1)) (by omega) (by omega)
      rw [show h - (k + 1) + 1 = h - k by omega] at this
      exact this.trans (Nat.mul_le_mul_left _ i1)
  have hL : ∀ x ≤ 2 * h, ∀ y, y ≤ x → α x ≤ (∏ i ∈ Ico y x, d i) * α y := by
    intro x
    induction x with
    | zero => intro _ y hy; obtain rfl : y = 0 := by omega
              simp
    | succ x ih =>
      intro hx y hy
      rcases Nat.eq_or_lt_of_le hy with rfl | hy
      · simp
      · have := ih (by omega) y (by omega)
        rw [prod_Ico_succ_top (by omega), hα x (by omega)]
        refine (min_le_right _ _).trans ?_
        calc d x * α x ≤ d x * ((∏ i ∈ Ico y x, d i) * α y) := Nat.mul_le_mul_left _ this
          _ = _ := by ring
  have hU : ∀ z ≤ h, α h ≤ (∏ i ∈ range z, d (h + i)) * α (h + z) := by
    intro z
    induction z with
    | zero => intro _; simp
    | succ z ih =>
      intro hz
      have := hA (h + z) (by omega) (by omega)
      rw [prod_range_succ, mul_assoc]
      exact (ih (by omega)).trans (Nat.mul_le_mul_left _ this)
  have hd0 : α h ≤ (∏ i ∈ range h, d (h + i)) * δ 0 := by
    have e1 := hL h (by omega) 0 (by omega)
    have e2 := hL h (by omega) 1 h1
    have e3 : α 1 ≤ δ 1 := by
      have := hD (h - 1) (by omega)
      rwa [show h - (h - 1) = 1 by omega] at this
    rw [← hprod, hδ 0 (by omega)]
    rw [← range_eq_Ico] at e1
    rcases min_choice (α 0) (d 0 * δ (0 + 1)) with hc | hc
    · rw [hc]; exact e1
    · rw [hc, range_eq_Ico, prod_eq_prod_Ico_succ_bot (by omega)]
      rcases Nat.eq_zero_or_pos (d 0) with h0 | h0
      · have : α 1 = 0 := by rw [hα 0 (by omega), h0]; simp
        rw [this] at e2; omega
      · calc α h ≤ (∏ i ∈ Ico 1 h, d i) * α 1 := e2
          _ ≤ (∏ i ∈ Ico 1 h, d i) * δ 1 := Nat.mul_le_mul_left _ e3
          _ ≤ (d 0 * d 0) * ((∏ i ∈ Ico 1 h, d i) * δ 1) := Nat.le_mul_of_pos_left _ (Nat.mul_pos h0 h0)
          _ = _ := by ring
  have hE : ∀ k ≤ h, ∀ P, (∀ z, h - k ≤ z → z < h → α h ≤ P * (∏ i ∈ Ico (h - k) z, d (h + i)) * α (h + z)) →
      α h ≤ P * (∏ i ∈ Ico (h - k) h, d (h + i)) * δ 0 → α h ≤ P * ε (h - k) := by
    intro k
    induction k with
    | zero => intro _ P _ h2; simpa [hεh] using h2
    | succ k ih =>
      intro hk P g1 g2
      rw [hε (h - (k + 1)) (by omega), ← Nat.mul_min_mul_left, show h - (k + 1) + 1 = h - k by omega]
      refine le_min (by simpa using g1 (h - (k + 1)) le_rfl (by omega)) ?_
      rw [← mul_assoc]
      have sh : ∀ z, h - k ≤ z → P * d (h + (h - (k + 1))) * ∏ i ∈ Ico (h - k) z, d (h + i)
          = P * ∏ i ∈ Ico (h - (k + 1)) z, d (h + i) := by
        intro z hz
        rw [prod_eq_prod_Ico_succ_bot (show h - (k + 1) < z by omega), show h - (k + 1) + 1 = h - k by omega, mul_assoc]
      refine ih (by omega) _ (fun z z1 z2 => ?_) ?_
      · rw [sh z z1]; exact g1 z (by omega) z2
      · rw [sh h (by omega)]; exact g2
  apply le_antisymm
  · rw [hε 0 (by omega)]; exact min_le_left _ _
  · have := hE h le_rfl 1 (fun z _ z2 => by
      rw [Nat.sub_self, one_mul, ← range_eq_Ico]; exact hU z z2.le) (by rw [Nat.sub_self, one_mul, ← range_eq_Ico]; exact hd0)
    simpa using this

theorem get_lt {α : Type*} {l : List α} {x : ℕ} (h : x < l.length) : ∃ t, l[x]? = some t := ⟨_, List.getElem?_eq_getElem h⟩

/-- The centre matrices in the middle and at the end of the update are square, if the state is right-orthonormal at the start and both
halves of the cell have local spaces of the same dimension. -/
theorem glued_square {O : LinAlg} (hO : O.Spec) {pinv : Mat ℂ → Mat ℂ} (hp : ∀ A, PinvSpec A (pinv A)) {e : Eng} {l r h : ℕ}
    (hs : e.mps.sth < 1e-15) (hw : e.mps.WF l r) (hcr : e.mps.conn.r = r) (hcl : e.mps.conn.c = l) (hN : e.mps.N = 2 * h)
    (h1 : 1 ≤ h) (hpos : e.mps.pos = 0) (hR : ∀ t ∈ e.mps.tensors, RightOrth t)
    (hprod : (e.mps.ds.take h).prod = (e.mps.ds.drop h).prod) {m1 m2 m3 m4 : MPS} (p1 : e.mps.position O e.mps.N = .ok m1)
    (p2 : m1.position O (h : ℤ) = .ok m2) (p3 : m2.position O 0 = .ok m3) (p4 : (glued pinv h m1 m2 m3).position O 0 = .ok m4) :
    m2.mat.r = m2.mat.c ∧ m4.mat.r = m4.mat.c := by
  have hs0 := effSth_default hs
  have hh : e.mps.N / 2 = h := by omega
  have q1 := (position_moved hO hs0 hw p1).2.2
  rw [Int.toNat_natCast] at q1
  have hs1 : m1.sth < 1e-15 := by rw [q1.sth]; exact hs
  have q2 := (position_moved hO (effSth_default hs1) q1.wf p2).2.2
  rw [Int.toNat_natCast] at q2
  have hs2 : m2.sth < 1e-15 := by rw [q2.sth]; exact hs1
  have q3 := (position_moved hO (effSth_default hs2) q2.wf p3).2.2
  rw [Int.toNat_zero] at q3
  have hs3 : m3.sth < 1e-15 := by rw [q3.sth]; exact hs2
  obtain ⟨gwf, gds, -⟩ := glue_spec hO hp hs0 hw hcr hcl hN p1 (by rw [hh]; exact p2) p3
  have hsg : (glued pinv h m1 m2 m3).sth < 1e-15 := hs3
  have q4 := (position_moved hO (effSth_default hsg) gwf p4).2.2
  rw [Int.toNat_zero] at q4
  have n0 : e.mps.tensors.length = 2 * h := by rw [hw.len, hN]
  have n1 : m1.tensors.length = 2 * h := by rw [q1.wf.len, q1.N, hN]
  have n2 : m2.tensors.length = 2 * h := by rw [q2.wf.len, q2.N, q1.N, hN]
  have n3 : m3.tensors.length = 2 * h := by rw [q3.wf.len, q3.N, q2.N, q1.N, hN]
  have n4 : m4.tensors.length = 2 * h := by
    rw [q4.wf.len, q4.N]
    show m3.N = 2 * h
    rw [q3.N, q2.N, q1.N, hN]
  have p10 : m1.pos = 2 * h := by rw [q1.pos, hN]
  have ds1 : m1.ds = e.mps.ds := q1.ds
  have ds2 : m2.ds = e.mps.ds := q2.ds.trans ds1
  have ds3 : m3.ds = e.mps.ds := q3.ds.trans ds2
  have dget : ∀ {m : MPS}, m.ds = e.mps.ds → ∀ {x : ℕ} {t : Ten ℂ}, m.tensors[x]? = some t → t.d = e.mps.ds.getD x 0 := by
    intro m hm x t ht
    rw [← hm, MPS.ds, List.getD_eq_getElem?_getD, List.getElem?_map, ht]; rfl
  have ld : e.mps.ds.length = 2 * h := by rw [MPS.ds, List.length_map, n0]
  -- the bonds
  have w0 := hw.right
  rw [hpos, List.drop_zero] at w0
  obtain ⟨β, -, b1, b2⟩ := linked_seq w0
  have w1 := q1.wf.left
  rw [p10, List.take_of_length_le (by omega)] at w1
  obtain ⟨α, -, -, a2⟩ := linked_seq w1
  have w2 := q2.wf.right
  rw [q2.pos] at w2
  obtain ⟨γ, c0, c1, c2⟩ := linked_seq w2
  have w3 := q3.wf.right
  rw [q3.pos, List.drop_zero] at w3
  obtain ⟨δ, -, -, d2⟩ := linked_seq w3
  have w4 := q4.wf.right
  rw [q4.pos, List.drop_zero] at w4
  obtain ⟨ε, e0, -, e2⟩ := linked_seq w4
  have w2l := q2.wf.left
  rw [q2.pos] at w2l
  obtain ⟨ζ, -, z1, z2⟩ := linked_seq w2l
  have w4l : m2.mat.r = m4.mat.r := by
    have := q4.wf.left
    rw [q4.pos, List.take_zero] at this
    exact this
  have hmr : m2.mat.r = α h := by
    obtain ⟨t, ht⟩ := get_lt (l := m2.tensors) (x := h - 1) (by omega)
    have e1 := (z2 (h - 1) t (by rw [List.getElem?_take_of_lt (by omega)]; exact ht)).2
    have e3 := (a2 (h - 1) t (by rw [← q2.same (h - 1) (Or.inl ⟨by omega, by omega⟩)]; exact ht)).2
    rw [show h - 1 + 1 = h by omega] at e1 e3
    rw [← e3, e1, ← z1, List.length_take]
    congr 1; omega
  have drop2 : ∀ y, (m2.tensors.drop h)[y]? = m2.tensors[h + y]? := fun y => List.getElem?_drop
  suffices key : γ 0 = α h ∧ ε 0 = α h by
    rw [hmr, ← c0, key.1, ← w4l, hmr, ← e0, key.2]
    exact ⟨rfl, rfl⟩
  refine dims_arith h1 (d := fun x => e.mps.ds.getD x 0) (β := β) (α := α) (γ := γ) (δ := δ) (ε := ε) ?_ ?_ ?_ ?_ ?_ ?_ ?_ ?_ ?_
  · have pr : ∀ L : List ℕ, L.prod = ∏ i ∈ range L.length, L.getD i 0 := by
      intro L
      rw [← Fin.prod_univ_eq_prod_range (fun i => L.getD i 0), ← List.prod_ofFn]
      congr 1
      apply List.ext_getElem <;> simp
    rw [pr, pr, List.length_take, List.length_drop, min_eq_left (by omega), ld, show 2 * h - h = h by omega] at hprod
    have x1 : ∏ i ∈ range h, e.mps.ds.getD i 0 = ∏ i ∈ range h, (e.mps.ds.take h).getD i 0 := prod_congr rfl fun i hi => by
      rw [List.getD_eq_getElem?_getD, List.getD_eq_getElem?_getD, List.getElem?_take_of_lt (mem_range.mp hi)]
    have x2 : ∏ i ∈ range h, e.mps.ds.getD (h + i) 0 = ∏ i ∈ range h, (e.mps.ds.drop h).getD i 0 := prod_congr rfl fun i _ => by
      rw [List.getD_eq_getElem?_getD, List.getD_eq_getElem?_getD, List.getElem?_drop]
    rw [x1, x2, hprod]
  · intro x hx
    obtain ⟨t, ht⟩ := get_lt (l := e.mps.tensors) (x := x) (by omega)
    have := rightOrth_le (hR t (List.mem_of_getElem? ht))
    rw [dget rfl ht, (b2 x t ht).1, (b2 x t ht).2] at this
    exact this
  · intro x hx
    obtain ⟨t, ht⟩ := get_lt (l := m1.tensors) (x := x) (by omega)
    obtain ⟨t0, g1, g2⟩ := position_dimsR hO hs p1 ht (by omega) (by omega)
    rw [dget ds1 ht, (a2 x t ht).1, (a2 x t ht).2, (b2 x t0 g1).2] at g2
    exact g2
  · intro y hy
    obtain ⟨t, ht⟩ := get_lt (l := m2.tensors) (x := h + y) (by omega)
    obtain ⟨t0, g1, g2⟩ := position_dimsL hO hs1 p2 ht (by omega) (by omega)
    have := c2 y t (by rw [drop2]; exact ht)
    rw [dget ds2 ht, this.1, this.2, (a2 _ t0 g1).1] at g2
    exact g2
  · rw [← b1, n0] at c1
    rw [← c1, List.length_drop, n2]
    congr 1; omega
  · intro x hx
    obtain ⟨t, ht⟩ := get_lt (l := m3.tensors) (x := x) (by omega)
    obtain ⟨t0, g1, g2⟩ := position_dimsL (b := 0) hO hs2 p3 ht (by omega) (by rw [q2.pos]; exact hx)
    rw [q2.same x (Or.inl ⟨by omega, hx⟩)] at g1
    rw [dget ds3 ht, (d2 x t ht).1, (d2 x t ht).2, (a2 _ t0 g1).1] at g2
    exact g2
  · obtain ⟨t, ht⟩ := get_lt (l := m3.tensors) (x := h) (by omega)
    rw [← (d2 h t ht).1]
    rw [q3.same h (Or.inr ⟨by rw [q2.pos], by omega⟩)] at ht
    exact (c2 0 t (by rw [drop2]; exact ht)).1
  · intro y hy
    obtain ⟨t, ht⟩ := get_lt (l := m4.tensors) (x := y) (by omega)
    obtain ⟨t0, g1, g2⟩ := position_dimsL (b := 0) hO hsg p4 ht (by omega) hy
    have g1' : (m1.tensors.drop h ++ m3.tensors.take h)[y]? = some t0 := g1
    rw [List.getElem?_append_left (by rw [List.length_drop]; omega), List.getElem?_drop] at g1'
    have hd : t.d = e.mps.ds.getD (h + y) 0 := by
      have : m4.ds = e.mps.ds.rotate h := q4.ds.trans gds
      have h2 : m4.ds[y]? = some t.d := by rw [MPS.ds, List.getElem?_map, ht]; rfl
      rw [this, List.rotate_eq_drop_append_take (by omega), List.getElem?_append_left (by rw [List.length_drop]; omega),
        List.getElem?_drop] at h2
      rw [List.getD_eq_getElem?_getD, h2]; rfl
    rw [hd, (e2 y t ht).1, (e2 y t ht).2, (a2 _ t0 g1').1] at g2
    exact g2
  · obtain ⟨t, ht⟩ := get_lt (l := m4.tensors) (x := h) (by omega)
    rw [← (e2 h t ht).1]
    rw [q4.same h (Or.inr ⟨le_rfl, by omega⟩)] at ht
    have g1' : (m1.tensors.drop h ++ m3.tensors.take h)[h]? = some t := ht
    rw [List.getElem?_append_right (by rw [List.length_drop]; omega), List.length_drop, List.getElem?_take_of_lt (by omega),
      show h - (m1.tensors.length - h) = 0 by omega] at g1'
    exact (d2 0 t g1').1

end

end PyTeN.Idmrg
