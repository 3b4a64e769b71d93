import Verif.Env.SteadyRun

/-! # Lemmas for steady-state Hamiltonians: density matrices and the leading eigenvector -/

namespace PyTeN.Steady
open Finset Transfer Regauge
noncomputable section

/-- Spec: the matrix has shape `(n,n)` and the entries `f`. -/
def IsM (M : Mat ℂ) (n : ℕ) (f : ℕ → ℕ → ℂ) : Prop := M.r = n ∧ M.c = n ∧ ∀ i < n, ∀ j < n, M.v i j = f i j

/-- Spec: the density matrix to the right (left) of some sites. -/
def carried (dir : Dir) (ts : List (Ten ℂ)) (n : ℕ) (g : ℕ → ℕ → ℂ) : ℕ → ℕ → ℂ :=
  match dir with
  | .right => fun j j' => ∑ i ∈ range n, ∑ i' ∈ range n, g i i' * kern ts i i' j j'
  | .left => fun i i' => ∑ j ∈ range n, ∑ j' ∈ range n, kern ts i i' j j' * g j j'

theorem carried_act (dir : Dir) (ts : List (Ten ℂ)) (n : ℕ) (g : ℕ → ℕ → ℂ) : carried dir ts n g = act dir ts n g := by cases dir <;> rfl

theorem carried_nil (dir : Dir) {n : ℕ} (g : ℕ → ℕ → ℂ) {i j : ℕ} (hi : i < n) (hj : j < n) : carried dir [] n g i j = g i j := by
  cases dir
  · simp only [carried, kern_nil]
    rw [sum_eq_single i, sum_eq_single j]
    · simp
    · intro b _ hb; simp [delta, hb.symm]
    · intro hb; exact absurd (mem_range.2 hj) hb
    · intro b _ hb; exact sum_eq_zero fun c _ => by simp [delta, hb.symm]
    · intro hb; exact absurd (mem_range.2 hi) hb
  · simp only [carried, kern_nil]
    rw [sum_eq_single i, sum_eq_single j]
    · simp
    · intro b _ hb; simp [delta, hb]
    · intro hb; exact absurd (mem_range.2 hj) hb
    · intro b _ hb; exact sum_eq_zero fun c _ => by simp [delta, hb]
    · intro hb; exact absurd (mem_range.2 hi) hb

theorem densLoop_right : ∀ {ts : List (Ten ℂ)} {l r : ℕ} {E : Env ℂ} {g : ℕ → ℕ → ℂ}, Linked l ts r → E.u = l → E.w = l →
    (∀ i < l, ∀ i' < l, E.v i i' 0 = g i i') →
    ∃ ms, densLoop .right E ts = .ok ms ∧ ms.length = ts.length ∧ ∀ n, n < ts.length → ∃ m M, ms[n]? = some M ∧
      Linked l (ts.take (n + 1)) m ∧ IsM M m (carried .right (ts.take (n + 1)) l g)
  | [], _, _, _, _, _, _, _, _ => ⟨[], rfl, rfl, fun n hn => by simp at hn⟩
  | t :: ts, l, r, E, g, hl, hu, hw, hE => by
    obtain ⟨h1, h2⟩ := hl
    have hc : E.u = t.l ∧ E.w = t.l ∧ t.d = t.d := ⟨by rw [hu, h1], by rw [hw, h1], rfl⟩
    have hF : addELayerR E t t = .ok ⟨t.r, t.r, E.m, fun j j' b => ∑ i ∈ range E.u, ∑ i' ∈ range E.w, ∑ s ∈ range t.d,
        E.v i i' b * t.v i j s * star (t.v i' j' s)⟩ := by unfold addELayerR; rw [if_pos hc]
    set F : Env ℂ := ⟨t.r, t.r, E.m, fun j j' b => ∑ i ∈ range E.u, ∑ i' ∈ range E.w, ∑ s ∈ range t.d,
        E.v i i' b * t.v i j s * star (t.v i' j' s)⟩ with hFd
    have hFv : ∀ j j', F.v j j' 0 = ∑ i ∈ range l, ∑ i' ∈ range l, g i i' * ∑ s ∈ range t.d, t.v i j s * star (t.v i' j' s) := by
      intro j j'
      rw [hFd]
      dsimp only
      rw [hu, hw]
      refine sum_congr rfl fun i hi => sum_congr rfl fun i' hi' => ?_
      rw [mul_sum, hE i (mem_range.1 hi) i' (mem_range.1 hi')]
      exact sum_congr rfl fun _ _ => by ring
    obtain ⟨ms, m1, m2, m3⟩ := densLoop_right (ts := ts) (l := t.r) (r := r) (E := F) (g := fun j j' => F.v j j' 0) h2 rfl rfl (fun _ _ _ _ => rfl)
    have hco : ∀ us : List (Ten ℂ), ∀ j j', carried .right us t.r (fun j j' => F.v j j' 0) j j' = carried .right (t :: us) l g j j' := by
      intro us j j'
      simp only [carried, hFv, kern_cons]
      rw [sum_assoc4]
    refine ⟨slice F 0 :: ms, by simp only [densLoop, eLayer, hF, m1], by simp [m2], fun n hn => ?_⟩
    cases n with
    | zero =>
      refine ⟨t.r, _, rfl, ⟨h1, rfl⟩, rfl, rfl, fun i hi j hj => ?_⟩
      change F.v i j 0 = _
      rw [show List.take (0 + 1) (t :: ts) = t :: [] by simp, ← hco [] i j, carried_nil .right _ hi hj]
    | succ n =>
      obtain ⟨m, M, q1, q2, q3, q4, q5⟩ := m3 n (by simpa using hn)
      refine ⟨m, M, by simpa using q1, by simpa using ⟨h1, q2⟩, q3, q4, fun i hi j hj => ?_⟩
      rw [q5 i hi j hj, hco]
      simp

theorem densLoop_mirror : ∀ (ts : List (Ten ℂ)) (E : Env ℂ), densLoop .left E ts = densLoop .right E (ts.map rT)
  | [], _ => rfl
  | t :: ts, E => by
    have : eLayer .left E t = eLayer .right E (rT t) := rfl
    simp only [densLoop, List.map_cons, this]
    split
    · rfl
    · rw [densLoop_mirror ts]

theorem kern_mirror {ts : List (Ten ℂ)} {l r : ℕ} (hl : Linked l ts r) {i i' j j' : ℕ} (hi : i < l) (hi' : i' < l) (hj : j < r) (hj' : j' < r) :
    kern (rTs ts) j j' i i' = kern ts i i' j j' := by
  rcases eq_or_ne ts [] with rfl | hne
  · change kern [] j j' i i' = _
    rw [kern_nil, kern_nil]; unfold delta; simp [eq_comm]
  have hdel : ∀ g : ℕ → ℕ → ℂ, (∑ a ∈ range r, ∑ a' ∈ range r, (delta ℂ a j * delta ℂ a' j') * g a a') = g j j' := by
    intro g
    rw [sum_eq_single j, sum_eq_single j']
    · simp
    · intro b _ hb; simp [delta, hb]
    · intro hb; exact absurd (mem_range.2 hj') hb
    · intro b _ hb; exact sum_eq_zero fun c _ => by simp [delta, hb]
    · intro hb; exact absurd (mem_range.2 hj) hb
  obtain ⟨x, -, hx⟩ := flat_isMat (f := fun a a' => delta ℂ a j * delta ℂ a' j') (r := r) rfl
  obtain ⟨y, y1, y2⟩ := C56_left ts hne hl hx
  have hne' : rTs ts ≠ [] := by simp [rTs, hne]
  obtain ⟨z, z1, z2⟩ := C56_right (rTs ts) hne' (rT_linked hl) hx
  have e : ∀ (us : List (Ten ℂ)) (x : Vec ℂ), unitLoop .left us x = unitLoop .right (us.map rT) x := by
    intro us
    induction us with
    | nil => intro x; rfl
    | cons u us ih =>
      intro x
      simp only [unitLoop, List.map_cons]
      have : transferOperator .left (.arr u) x = transferOperator .right (.arr (rT u)) x := rfl
      rw [this]
      split
      · rfl
      · exact ih _
  have h1 : unitcellTransferOperator .left ts x = unitcellTransferOperator .right (rTs ts) x := by
    unfold unitcellTransferOperator
    rw [if_neg hne, if_neg hne']
    change unitLoop .left ts.reverse x = unitLoop .right (rTs ts) x
    rw [e, rTs, List.map_reverse]
  rw [h1, z1] at y1
  cases y1
  have a1 := y2.2 i hi i' hi'
  have a2 := z2.2 i hi i' hi'
  dsimp only at a1 a2
  rw [hdel (fun a a' => kern (rTs ts) a a' i i')] at a2
  rw [← a2, a1, ← hdel (fun a a' => kern ts i i' a a')]
  exact sum_congr rfl fun _ _ => sum_congr rfl fun _ _ => mul_comm _ _

theorem carried_mirror {ts : List (Ten ℂ)} {l r : ℕ} (hl : Linked l ts r) (g : ℕ → ℕ → ℂ) {i i' : ℕ} (hi : i < l) (hi' : i' < l) :
    carried .right (rTs ts) r g i i' = carried .left ts r g i i' := by
  simp only [carried]
  refine sum_congr rfl fun j hj => sum_congr rfl fun j' hj' => ?_
  rw [kern_mirror hl hi hi' (mem_range.1 hj) (mem_range.1 hj'), mul_comm]

/-- The density matrices on all bonds, from left to right. -/
theorem density_right {ts : List (Ten ℂ)} (hne : ts ≠ []) {l r : ℕ} (hl : Linked l ts r) {x : Mat ℂ} {g : ℕ → ℕ → ℂ} (hx : IsM x l g) :
    ∃ ds, computeDensity .right x ts = .ok ds ∧ ds.length = ts.length + 1 ∧ ∀ n ≤ ts.length, ∃ m M, ds[n]? = some M ∧
      Linked l (ts.take n) m ∧ IsM M m (carried .right (ts.take n) l g) := by
  obtain ⟨a, b, ha, hb, hal, -⟩ := linked_ends hne hl
  obtain ⟨ms, m1, m2, m3⟩ := densLoop_right (E := ⟨a.l, a.l, 1, fun i j _ => x.v i j⟩) hl hal hal hx.2.2
  refine ⟨x :: ms, ?_, by simp [m2], fun n hn => ?_⟩
  · unfold computeDensity
    rw [ha, hb]
    simp only
    rw [if_pos ⟨by rw [hx.1, hal], by rw [hx.2.1, hal]⟩, m1]
  · cases n with
    | zero => exact ⟨l, x, rfl, rfl, hx.1, hx.2.1, fun i hi j hj => by rw [hx.2.2 i hi j hj, List.take_zero, carried_nil .right g hi hj]⟩
    | succ n =>
      obtain ⟨m, M, q1, q2⟩ := m3 n hn
      exact ⟨m, M, by simpa using q1, q2⟩

/-- The density matrices on all bonds, from right to left. -/
theorem density_left {ts : List (Ten ℂ)} (hne : ts ≠ []) {l r : ℕ} (hl : Linked l ts r) {x : Mat ℂ} {g : ℕ → ℕ → ℂ} (hx : IsM x r g) :
    ∃ ds, computeDensity .left x ts = .ok ds ∧ ds.length = ts.length + 1 ∧ ∀ n ≤ ts.length, ∃ m M, ds[n]? = some M ∧
      Linked m (ts.drop n) r ∧ IsM M m (carried .left (ts.drop n) r g) := by
  obtain ⟨a, b, ha, hb, -, hbr⟩ := linked_ends hne hl
  have hlen : (rTs ts).length = ts.length := by simp [rTs]
  obtain ⟨ms, m1, m2, m3⟩ := densLoop_right (E := ⟨b.r, b.r, 1, fun i j _ => x.v i j⟩) (rT_linked hl) hbr hbr hx.2.2
  rw [hlen] at m2 m3
  refine ⟨ms.reverse ++ [x], ?_, by simp [m2], fun n hn => ?_⟩
  · unfold computeDensity
    rw [ha, hb]
    simp only
    rw [if_pos ⟨by rw [hx.1, hbr], by rw [hx.2.1, hbr]⟩, densLoop_mirror, List.map_reverse]
    change (match densLoop .right _ (rTs ts) with | .error e => _ | .ok ms => _) = _
    rw [m1]
  · rcases Nat.lt_or_ge n ts.length with h | h
    · obtain ⟨m, M, q1, q2, q3, q4, q5⟩ := m3 (ts.length - 1 - n) (by omega)
      have ht : (rTs ts).take (ts.length - 1 - n + 1) = rTs (ts.drop n) := by
        simp only [rTs, List.take_reverse, List.length_map, List.map_drop]
        congr 2
        omega
      rw [ht] at q2 q5
      have hl' : Linked m (ts.drop n) r := by have := rT_linked q2; rwa [rTs_rTs] at this
      refine ⟨m, M, ?_, hl', q3, q4, fun i hi j hj => by rw [q5 i hi j hj, carried_mirror hl' g hi hj]⟩
      rw [List.getElem?_append_left (by simp [m2, h]), List.getElem?_reverse (by rw [m2]; exact h), m2]
      exact q1
    · obtain rfl : n = ts.length := le_antisymm hn h
      refine ⟨r, x, ?_, by rw [List.drop_length]; rfl, hx.1, hx.2.1, fun i hi j hj => ?_⟩
      · rw [List.getElem?_append_right (by simp [m2])]; simp [m2]
      · rw [hx.2.2 i hi j hj, List.drop_length, carried_nil .left g hi hj]

/-! ## The leading eigenvector -/

/-- Contract of `scipy.sparse.linalg.eigs(LOP,k,which='LR')`: `k` pairs of eigenvalues and eigenvectors of the operator, and no
eigenvalue of larger real part is missing. -/
def EigsLR (eigs : Eigs) : Prop := ∀ N f k l, eigs N f k = .ok l → l.length = k ∧ ∀ q ∈ l, q.2.n = N ∧ (∃ i < N, q.2.v i ≠ 0) ∧
  (∃ w, f q.2 = .ok w ∧ ∀ i < N, w.v i = q.1 * q.2.v i) ∧
  ∀ (μ : ℂ) (u : Vec ℂ), u.n = N → (∃ i < N, u.v i ≠ 0) → (∃ w, f u = .ok w ∧ ∀ i < N, w.v i = μ * u.v i) → μ.re ≤ q.1.re ∨ ∃ q' ∈ l, q'.1 = μ

theorem argmaxRe_max : ∀ {l : List (ℂ × Vec ℂ)} {q : ℂ × Vec ℂ}, argmaxRe l = .ok q → q ∈ l ∧ ∀ p ∈ l, p.1.re ≤ q.1.re
  | [], _, h => by cases h
  | x :: l, q, h => by
    simp only [argmaxRe] at h
    split at h
    · rename_i e he
      cases h
      have : l = [] := by
        cases l with
        | nil => rfl
        | cons y l =>
          simp only [argmaxRe] at he
          split at he
          · cases he
          · split_ifs at he
      subst this
      simp
    · rename_i y hy
      obtain ⟨h1, h2⟩ := argmaxRe_max hy
      split_ifs at h with hc
      · cases h
        refine ⟨by simp, fun p hp => ?_⟩
        rcases List.mem_cons.1 hp with rfl | hp
        · exact le_rfl
        · exact (h2 p hp).trans hc
      · cases h
        refine ⟨List.mem_cons_of_mem _ h1, fun p hp => ?_⟩
        rcases List.mem_cons.1 hp with rfl | hp
        · exact (not_le.1 hc).le
        · exact h2 p hp

theorem tmLoop_max {eigs : Eigs} (hE : EigsLR eigs) {N : ℕ} {f : Vec ℂ → Res (Vec ℂ)} : ∀ {fuel k : ℕ} {η : ℂ} {v : Vec ℂ},
    tmLoop eigs N f fuel k = .ok (η, v) → v.n = N ∧ (∃ i < N, v.v i ≠ 0) ∧ (∃ w, f v = .ok w ∧ ∀ i < N, w.v i = η * v.v i) ∧
      ∀ (μ : ℂ) (u : Vec ℂ), u.n = N → (∃ i < N, u.v i ≠ 0) → (∃ w, f u = .ok w ∧ ∀ i < N, w.v i = μ * u.v i) → μ.re ≤ η.re
  | 0, _, _, _, h => by cases h
  | fuel + 1, k, η, v, h => by
    rw [tmLoop] at h
    split_ifs at h
    split at h
    · cases h
    rename_i l hl
    split at h
    · cases h
    rename_i η' v' hm
    split_ifs at h
    · exact tmLoop_max hE h
    · cases h
      obtain ⟨m1, m2⟩ := argmaxRe_max hm
      obtain ⟨-, h2⟩ := hE _ _ _ _ hl
      obtain ⟨a1, a2, a3, a4⟩ := h2 _ m1
      refine ⟨a1, a2, a3, fun μ u u1 u2 u3 => ?_⟩
      rcases a4 μ u u1 u2 u3 with h | ⟨q', hq, hq'⟩
      · exact h
      · have := m2 q' hq
        rwa [hq'] at this

/-- For a normal cell the eigensolver finds a multiple of the density matrix. -/
theorem lr_lead {dir : Dir} {pinv : ℝ} {n : ℕ} {ts : List (Ten ℂ)} {η : ℝ} {p : ℕ → ℕ → ℂ}
    (hne : ts ≠ []) (hl : Linked n ts n) (hN : Normal dir pinv n ts η p) {μ : ℂ} {v : Vec ℂ} (a1 : v.n = n * n)
    (a2 : ∃ i < n * n, v.v i ≠ 0) (a3 : ∃ w, unitcellTransferOperator dir ts v = .ok w ∧ ∀ i < n * n, w.v i = μ * v.v i)
    (a4 : ∀ (ν : ℂ) (u : Vec ℂ), u.n = n * n → (∃ i < n * n, u.v i ≠ 0) →
      (∃ w, unitcellTransferOperator dir ts u = .ok w ∧ ∀ i < n * n, w.v i = ν * u.v i) → ν.re ≤ μ.re) :
    μ = η ∧ ∃ (c : ℂ) (f : ℕ → ℕ → ℂ), c ≠ 0 ∧ IsMat v n f ∧ ∀ i < n, ∀ j < n, f i j = c * p i j := by
  obtain ⟨k, hk, hk0⟩ := a2
  obtain ⟨w, w1, w2⟩ := a3
  have hn : 0 < n := Nat.pos_of_ne_zero fun h0 => by rw [h0] at hk; simp at hk
  have hv : IsMat v n fun i j => v.v (i * n + j) := ⟨a1, fun _ _ _ _ => rfl⟩
  have heig : ∀ i < n, ∀ j < n, act dir ts n (fun i j => v.v (i * n + j)) i j = μ * v.v (i * n + j) := by
    intro i hi j hj
    obtain ⟨y, y1, y2⟩ := unit_act dir hne hl hv
    rw [w1] at y1
    cases y1
    rw [← w2 _ (index_lt hi hj), y2.2 i hi j hj]
  obtain ⟨x, -, hx⟩ := flat_isMat (f := p) (r := n) rfl
  obtain ⟨i0, hi0, hp0⟩ := hN.dens.ne
  obtain ⟨z, z1, z2⟩ := unit_act dir hne hl hx
  have hre : η ≤ μ.re := by
    have := a4 (η : ℂ) x hx.1 ⟨i0 * n + i0, index_lt hi0 hi0, by rw [hx.2 _ hi0 _ hi0]; exact hp0⟩ ⟨z, z1, fun i hi => ?_⟩
    · simpa using this
    · have e : i = i / n * n + i % n := (Nat.div_add_mod' i n).symm
      have h1 : i / n < n := Nat.div_lt_of_lt_mul hi
      have h2 : i % n < n := Nat.mod_lt _ hn
      rw [e, z2.2 _ h1 _ h2, hx.2 _ h1 _ h2, hN.eig _ h1 _ h2]
  have hnz : ∃ i < n, ∃ j < n, v.v (i * n + j) ≠ 0 := by
    refine ⟨k / n, Nat.div_lt_of_lt_mul hk, k % n, Nat.mod_lt _ hn, ?_⟩
    rwa [Nat.div_add_mod' k n]
  obtain ⟨c, hc⟩ := hN.uniq μ _ hnz heig (hre.trans (Complex.re_le_norm μ))
  have hc0 : c ≠ 0 := by
    rintro rfl
    obtain ⟨i, hi, j, hj, h0⟩ := hnz
    exact h0 (by rw [hc i hi j hj, zero_mul])
  refine ⟨?_, c, _, hc0, hv, hc⟩
  have e := heig i0 hi0 i0 hi0
  rw [act_congr dir ts hc, act_smul, hN.eig i0 hi0 i0 hi0, hc i0 hi0 i0 hi0] at e
  have : c * p i0 i0 * (μ - η) = 0 := by linear_combination -e
  rcases mul_eq_zero.1 this with h' | h'
  · exact absurd h' (mul_ne_zero hc0 hp0)
  · exact sub_eq_zero.1 h'

theorem tm_lr {eigs : Eigs} (hE : EigsLR eigs) {dir : Dir} {pinv : ℝ} {n : ℕ} {ts : List (Ten ℂ)} {η : ℝ} {p : ℕ → ℕ → ℂ}
    (hne : ts ≠ []) (hl : Linked n ts n) (hN : Normal dir pinv n ts η p) {μ : ℂ} {v : Vec ℂ} (h : unitcellTMeigs eigs dir ts = .ok (μ, v)) :
    μ = η ∧ ∃ (c : ℂ) (f : ℕ → ℕ → ℂ), c ≠ 0 ∧ IsMat v n f ∧ ∀ i < n, ∀ j < n, f i j = c * p i j := by
  rw [tm_unfold hne hl] at h
  obtain ⟨a1, a2, a3, a4⟩ := tmLoop_max hE h
  exact lr_lead hne hl hN a1 a2 a3 a4

theorem tm_lr_total {eigs : Eigs} (hE : EigsLR eigs) (hcv : Converges eigs) {dir : Dir} {pinv : ℝ} {n : ℕ} {ts : List (Ten ℂ)} {η : ℝ} {p : ℕ → ℕ → ℂ}
    (hne : ts ≠ []) (hl : Linked n ts n) (hN : Normal dir pinv n ts η p) (hn : 2 ≤ n) : ∃ v, unitcellTMeigs eigs dir ts = .ok ((η : ℂ), v) := by
  rw [tm_unfold hne hl]
  obtain ⟨l, hq⟩ := hcv dir ts n hne hl hn
  obtain ⟨l1, l2⟩ := hE _ _ _ _ hq
  obtain ⟨q, rfl⟩ := List.length_eq_one_iff.1 l1
  obtain ⟨a1, a2, a3, a4⟩ := l2 q (List.mem_singleton_self q)
  obtain ⟨hη, -⟩ := lr_lead hne hl hN (μ := q.1) a1 a2 a3 fun ν u u1 u2 u3 => by
    rcases a4 ν u u1 u2 u3 with h' | ⟨q', hq', h'⟩
    · exact h'
    · rw [List.mem_singleton.1 hq'] at h'; rw [h']
  have h4 : 4 ≤ n * n := Nat.mul_le_mul hn hn
  obtain ⟨F, hF⟩ : ∃ F, n * n = F + 1 := ⟨n * n - 1, by omega⟩
  refine ⟨q.2, ?_⟩
  rw [hF, tmLoop, ← hF, if_neg (by omega), hq]
  simp only [argmaxRe]
  rw [hη, if_neg (not_largeImag hN.pos)]

/-- The normalisation of the density matrix. -/
theorem boundOf_spec {pinv : ℝ} {n : ℕ} {p f : ℕ → ℕ → ℂ} (hp : Density pinv n p) {v : Vec ℂ} (hv : IsMat v n f) {c : ℂ} (hc : c ≠ 0)
    (hf : ∀ i < n, ∀ j < n, f i j = c * p i j) : ∃ x, boundOf v n = .ok x ∧ IsM x n p := by
  have hv' : ∀ i < n, ∀ j < n, v.v (i * n + j) = c * p i j := fun i hi j hj => by rw [hv.2 i hi j hj, hf i hi j hj]
  have htr : trace ⟨n, n, fun i j => v.v (i * n + j)⟩ = c := by
    unfold trace
    rw [sum_congr rfl fun i hi => hv' i (mem_range.1 hi) i (mem_range.1 hi), ← mul_sum, hp.tr, mul_one]
  obtain ⟨i0, hi0, hp0⟩ := hp.ne
  set z : ℝ := Real.sqrt (∑ i ∈ range n, ∑ j ∈ range n, Complex.normSq (v.v (i * n + j) / c)) with hz
  have hzp : 0 < z := by
    apply Real.sqrt_pos.2
    refine sum_pos' (fun i _ => sum_nonneg fun j _ => Complex.normSq_nonneg _) ⟨i0, mem_range.2 hi0, ?_⟩
    refine sum_pos' (fun j _ => Complex.normSq_nonneg _) ⟨i0, mem_range.2 hi0, ?_⟩
    rw [hv' _ hi0 _ hi0, mul_div_cancel_left₀ _ hc]
    exact Complex.normSq_pos.2 hp0
  have hzc : (z : ℂ) ≠ 0 := by exact_mod_cast hzp.ne'
  have hfix : fixPhase ⟨n, n, fun i j => v.v (i * n + j)⟩ = .ok ⟨n, n, fun i j => v.v (i * n + j) / c / (z : ℂ)⟩ := by
    unfold fixPhase
    rw [if_neg (by rw [htr]; exact hc)]
    simp only [htr]
    rw [← hz, if_neg hzp.ne']
  have hH : ∀ i < n, ∀ j < n, (v.v (i * n + j) / c / (z : ℂ) + star (v.v (j * n + i) / c / (z : ℂ))) / 2 = p i j / z := by
    intro i hi j hj
    rw [hv' i hi j hj, hv' j hj i hi, mul_div_cancel_left₀ _ hc, mul_div_cancel_left₀ _ hc, star_div₀, hp.herm j hj i hi,
      show star (z : ℂ) = z from Complex.conj_ofReal z]
    ring
  have htr2 : trace ⟨n, n, fun i j => (v.v (i * n + j) / c / (z : ℂ) + star (v.v (j * n + i) / c / (z : ℂ))) / 2⟩ = 1 / z := by
    unfold trace
    rw [sum_congr rfl fun i hi => hH i (mem_range.1 hi) i (mem_range.1 hi), ← sum_div, hp.tr]
  refine ⟨⟨n, n, fun i j => (v.v (i * n + j) / c / (z : ℂ) + star (v.v (j * n + i) / c / (z : ℂ))) / 2 / (1 / z)⟩, ?_, rfl, rfl, fun i hi j hj => ?_⟩
  · have hre : reshape2 v n n = .ok ⟨n, n, fun i j => v.v (i * n + j)⟩ := by simp [reshape2, hv.1]
    simp only [boundOf, hre, hfix, htr2]
    rw [if_neg (one_div_ne_zero hzc)]
  · change _ / _ = _
    rw [hH i hi j hj]
    field_simp

end

end PyTeN.Steady
