import Verif.Engine.Idmrg
import Verif.Engine.Init
import Verif.Engine.Progress
import Verif.Props.Transfer
import Verif.Mps.Oracle
import Mathlib.LinearAlgebra.Matrix.ToLin
import Mathlib.LinearAlgebra.Basis.VectorSpace

/-! # The IDMRG growth step exchanges the halves of the unit cell (C58) -/

namespace PyTeN
open Finset Idmrg

noncomputable section

/-! ## Specification -/

/-- Spec: product of two matrices with inner dimension `n`. -/
def mmul (n : ℕ) (A B : ℕ → ℕ → ℂ) (i j : ℕ) : ℂ := ∑ k ∈ range n, A i k * B k j

/-- Spec: configurations of sites with the given local dimensions. -/
def CfgD (ds s : List ℕ) : Prop := List.Forall₂ (fun d x => x < d) ds s

/-- Spec: a row of unit cells `M(s₁)·C·M(s₂)·C·…·M(s_k)·C·V` closed by the matrix `V` on the right. -/
def cellRow (M : List ℕ → ℕ → ℕ → ℂ) (C : Mat ℂ) : List (List ℕ) → (ℕ → ℕ → ℂ) → ℕ → ℕ → ℂ
  | [], V => V
  | s :: ss, V => mmul C.r (M s) (mmul C.c C.v (cellRow M C ss V))

/-- Spec: `M'` with link `C'` is `M` with link `C` cut in two after the first half `Y` of the sites and glued together
the other way round: `M(a b) = Y(a)·C'·X(b)` and `M'(b a) = p·X(b)·C·Y(a)`. -/
structure Exchanged (dL dR : List ℕ) (M : List ℕ → ℕ → ℕ → ℂ) (C : Mat ℂ) (M' : List ℕ → ℕ → ℕ → ℂ) (C' : Mat ℂ)
    (X Y : List ℕ → ℕ → ℕ → ℂ) (p : ℝ) : Prop where
  pos : 0 < p
  old : ∀ a b, CfgD dL a → CfgD dR b → ∀ i < C.c, ∀ j < C.r,
    M (a ++ b) i j = mmul C'.r (Y a) (mmul C'.c C'.v (X b)) i j
  new : ∀ a b, CfgD dL a → CfgD dR b → ∀ i < C'.c, ∀ j < C'.r,
    M' (b ++ a) i j = p * mmul C.r (X b) (mmul C.c C.v (Y a)) i j

/-! ## Algebra -/

theorem mmul_assoc (n m : ℕ) (A B C : ℕ → ℕ → ℂ) : mmul m (mmul n A B) C = mmul n A (mmul m B C) := by
  funext i j
  simp only [mmul, sum_mul, mul_sum]
  rw [sum_comm]
  refine sum_congr rfl fun _ _ => sum_congr rfl fun _ _ => ?_
  ring

theorem mmul_congr {n : ℕ} {A A' B B' : ℕ → ℕ → ℂ} {i j : ℕ} (h1 : ∀ k < n, A i k = A' i k)
    (h2 : ∀ k < n, B k j = B' k j) : mmul n A B i j = mmul n A' B' i j :=
  sum_congr rfl fun k hk => by rw [h1 k (mem_range.mp hk), h2 k (mem_range.mp hk)]

theorem mmul_smul_right (n : ℕ) (c : ℂ) (A B : ℕ → ℕ → ℂ) (i j : ℕ) :
    mmul n A (fun x y => c * B x y) i j = c * mmul n A B i j := by
  simp only [mmul, mul_sum]
  exact sum_congr rfl fun _ _ => by ring

theorem mmul_smul_left (n : ℕ) (c : ℂ) (A B : ℕ → ℕ → ℂ) (i j : ℕ) :
    mmul n (fun x y => c * A x y) B i j = c * mmul n A B i j := by
  simp only [mmul, mul_sum]
  exact sum_congr rfl fun _ _ => by ring

theorem split_mmul (A : List (Ten ℂ)) (m : Mat ℂ) (B : List (Ten ℂ)) (sA sB : List ℕ) (i j : ℕ) :
    split A m B sA sB i j = mmul m.r (chain A sA) (mmul m.c m.v (chain B sB)) i j := by
  simp only [split, mmul, mul_sum]
  exact sum_congr rfl fun _ _ => sum_congr rfl fun _ _ => by ring

theorem mmul_delta {n : ℕ} (A : ℕ → ℕ → ℂ) (i : ℕ) {j : ℕ} (hj : j < n) : mmul n A (delta ℂ) i j = A i j := by
  simp only [mmul, delta]
  simp [hj]

theorem delta_mmul {n : ℕ} (B : ℕ → ℕ → ℂ) {i : ℕ} (j : ℕ) (hi : i < n) : mmul n (delta ℂ) B i j = B i j := by
  simp only [mmul, delta]
  simp [hi]

theorem chain_nil : chain ([] : List (Ten ℂ)) [] = delta ℂ := by
  funext i j; rfl

/-! ## Loops -/

theorem cutHalf_ok (ts : List (Ten ℂ)) : ∀ (k n : ℕ) (acc : List (Ten ℂ) × ℕ) (res : List (Ten ℂ) × ℕ),
    cutHalf ts k n acc = .ok res → res.1 = acc.1 ++ (ts.drop n).take k ∧ n + k ≤ max ts.length n := by
  intro k
  induction k with
  | zero =>
    intro n acc res h
    simp only [cutHalf, Except.ok.injEq] at h
    subst h; simp
  | succ k ih =>
    intro n ⟨new, D⟩ res h
    simp only [cutHalf] at h
    split at h
    · cases h
    rename_i t ht
    have ht' : ts[n]? = some t := by
      unfold getE at ht; split at ht <;> simp_all
    have hn := (List.getElem?_eq_some_iff.mp ht').1
    obtain ⟨h1, h2⟩ := ih _ _ _ h
    refine ⟨?_, by omega⟩
    rw [h1, drop_getElem? ht']
    simp

theorem getE_eq {α : Type*} {l : List α} {n : ℕ} {x : α} (h : getE l n = .ok x) : l[n]? = some x := by
  unfold getE at h; split at h <;> simp_all

theorem cutHalf_dim (ts : List (Ten ℂ)) : ∀ (k n : ℕ) (acc : List (Ten ℂ) × ℕ) (res : List (Ten ℂ) × ℕ),
    cutHalf ts k n acc = .ok res → acc.2 ≤ res.2 ∧ (∀ t ∈ (ts.drop n).take k, t.l ≤ res.2) ∧
      (res.2 = acc.2 ∨ ∃ t ∈ (ts.drop n).take k, t.l = res.2) := by
  intro k
  induction k with
  | zero =>
    intro n acc res h
    simp only [cutHalf, Except.ok.injEq] at h
    subst h; simp
  | succ k ih =>
    intro n ⟨new, D⟩ res h
    simp only [cutHalf] at h
    split at h
    · cases h
    rename_i t ht
    have ht' := getE_eq ht
    obtain ⟨h1, h2, h3⟩ := ih _ _ _ h
    rw [drop_getElem? ht', List.take_succ_cons]
    simp only at h1 h3 ⊢
    split_ifs at h1 h3 with hc
    · refine ⟨by omega, ?_, Or.inr ?_⟩
      · intro t' ht'; rcases List.mem_cons.mp ht' with rfl | h'
        · exact h1
        · exact h2 _ h'
      · rcases h3 with h3 | ⟨t', a, b⟩
        · exact ⟨t, by simp, h3.symm⟩
        · exact ⟨t', List.mem_cons_of_mem _ a, b⟩
    · refine ⟨h1, ?_, ?_⟩
      · intro t' ht'; rcases List.mem_cons.mp ht' with rfl | h'
        · omega
        · exact h2 _ h'
      · rcases h3 with h3 | ⟨t', a, b⟩
        · exact Or.inl h3
        · exact Or.inr ⟨t', List.mem_cons_of_mem _ a, b⟩

theorem copyBack_ok (new : List (Ten ℂ)) : ∀ (k n : ℕ) (ts res : List (Ten ℂ)), n + k = ts.length →
    copyBack new k n ts = .ok res → ts.take n = new.take n → res = new.take ts.length ∧ ts.length ≤ max new.length n := by
  intro k
  induction k with
  | zero =>
    intro n ts res hl h ht
    simp only [copyBack, Except.ok.injEq] at h
    subst h
    refine ⟨?_, by omega⟩
    rw [← hl, Nat.add_zero, ← ht, List.take_of_length_le (by omega)]
  | succ k ih =>
    intro n ts res hl h ht
    simp only [copyBack] at h
    split at h
    · cases h
    rename_i t hg
    have hg' : new[n]? = some t := by
      unfold getE at hg; split at hg <;> simp_all
    split at h
    · cases h
    rename_i ts' hs
    unfold setE at hs
    rw [if_pos (by omega)] at hs
    simp only [Except.ok.injEq] at hs
    subst hs
    have := ih (n + 1) _ _ (by simp; omega) h (by
      rw [take_succ_getElem? hg', ← ht]
      rw [take_succ_getElem? (x := t) (by rw [List.getElem?_set_self (by omega)])]
      congr 1
      rw [List.take_set_of_le le_rfl])
    simp only [List.length_set] at this
    refine ⟨this.1, ?_⟩
    have := (List.getElem?_eq_some_iff.mp hg').1
    omega

theorem lbLoop_isL (ts : List (Ten ℂ)) (mpo : List (Mpo ℂ)) : ∀ (k n : ℕ) (E E' : Env ℂ),
    lbLoop ts mpo k n E = .ok E' →
    IsL E ((ts.drop n).take k) ((mpo.drop n).take k) ((ts.drop n).take k) E' := by
  intro k
  induction k with
  | zero =>
    intro n E E' h
    simp only [lbLoop, Except.ok.injEq] at h
    subst h; simpa using isL_nil E
  | succ k ih =>
    intro n E E' h
    simp only [lbLoop] at h
    split at h
    · cases h
    rename_i A hA
    split at h
    · cases h
    rename_i W hW
    split at h
    · cases h
    rename_i E1 h1
    rw [drop_getElem? (getE_eq hA), drop_getElem? (getE_eq hW)]
    simpa using isL_cons h1 (ih _ _ _ h)

theorem rbLoop_isR (ts : List (Ten ℂ)) (mpo : List (Mpo ℂ)) (lo : ℕ) : ∀ (k : ℕ) (E E' : Env ℂ),
    rbLoop ts mpo lo k E = .ok E' →
    IsR E ((ts.drop lo).take k) ((mpo.drop lo).take k) ((ts.drop lo).take k) E' := by
  intro k
  induction k with
  | zero =>
    intro E E' h
    simp only [rbLoop, Except.ok.injEq] at h
    subst h; simpa using isR_nil E
  | succ k ih =>
    intro E E' h
    simp only [rbLoop] at h
    split at h
    · cases h
    rename_i A hA
    split at h
    · cases h
    rename_i W hW
    split at h
    · cases h
    rename_i E1 h1
    have a : (ts.drop lo)[k]? = some A := by rw [List.getElem?_drop]; exact getE_eq hA
    have b : (mpo.drop lo)[k]? = some W := by rw [List.getElem?_drop]; exact getE_eq hW
    rw [take_succ_getElem? a, take_succ_getElem? b]
    exact isR_snoc h1 (ih _ _ h)

/-- What the first part of a successful update did, step by step (the caches of `e'` are irrelevant). -/
structure Cut (O : LinAlg) (pinv : Mat ℂ → Mat ℂ) (e e' : Eng) (D : ℕ) (m1 m2 m3 m4 : MPS) (mat : Mat ℂ) : Prop where
  p1 : e.mps.position O e.mps.N = .ok m1
  p2 : m1.position O ((e.mps.N / 2 : ℕ) : ℤ) = .ok m2
  p3 : m2.position O ((0 : ℕ) : ℤ) = .ok m3
  d1 : m1.mat.c = m3.conn.r
  d2 : m3.conn.c = m3.mat.r
  hmat : mat = (m1.mat.dot m3.conn).dot m3.mat
  p4 : ({ m3 with
          tensors := ((m1.tensors.drop (e.mps.N / 2)).take (e.mps.N - e.mps.N / 2)
            ++ m3.tensors.take (e.mps.N / 2)).take e.mps.N,
          pos := e.mps.N / 2, mat := mat, conn := pinv m2.mat } : MPS).position O ((0 : ℕ) : ℤ) = .ok m4
  mps : e'.mps = m4
  mpo : Transfer.patchmpo e.mpo ((e.mps.N / 2 : ℕ) : ℤ) = .ok e'.mpo
  lb : IsL e.lb (m1.tensors.take (e.mps.N / 2)) (e.mpo.take (e.mps.N / 2)) (m1.tensors.take (e.mps.N / 2)) e'.lb
  rb : IsR e.rb ((m2.tensors.drop (e.mps.N / 2)).take (e.mps.N - e.mps.N / 2))
    ((e.mpo.drop (e.mps.N / 2)).take (e.mps.N - e.mps.N / 2))
    ((m2.tensors.drop (e.mps.N / 2)).take (e.mps.N - e.mps.N / 2)) e'.rb
  dim : ∃ acc new, cutHalf m1.tensors (e.mps.N - e.mps.N / 2) (e.mps.N / 2) ([], 0) = .ok acc ∧
    cutHalf m3.tensors (e.mps.N / 2) 0 acc = .ok (new, D)

/-- What a successful update did, step by step. -/
structure Steps (O : LinAlg) (pinv : Mat ℂ → Mat ℂ) (e e' : Eng) (D : ℕ) (m1 m2 m3 m4 : MPS) (mat : Mat ℂ) : Prop
    extends Cut O pinv e e' D m1 m2 m3 m4 mat where
  L : ∃ L, getL m4.tensors e'.mpo e'.lb = .ok L ∧ e'.L = e'.lb :: L
  R : ∃ R, getR m4.tensors e'.mpo e'.rb = .ok R ∧ e'.R = e'.rb :: R

theorem position_conn {O : LinAlg} {m m' : MPS} {b : ℤ} (h : m.position O b = .ok m') : m'.conn = m.conn := by
  unfold MPS.position at h
  split at h
  · cases h
  split at h
  · cases h
  simp only at h
  split_ifs at h
  · cases h; rfl
  all_goals
    split at h
    · cases h
    split at h
    · cases h
    split at h
    · cases h
    cases h; rfl

theorem position_len {O : LinAlg} {m m' : MPS} {b : ℤ} (h : m.position O b = .ok m') :
    m'.N = m.N ∧ m'.tensors.length = m.tensors.length := by
  have hR : ∀ (cut : Ten ℂ → Res (Ten ℂ × Mat ℂ × ℝ)) (bd k n : ℕ) (v w : Sweep), sweepR cut bd k n v = .ok w →
      w.ts.length = v.ts.length := by
    intro cut bd k
    induction k with
    | zero => intro n v w h; simp only [sweepR] at h; cases h; rfl
    | succ k ih =>
      intro n v w h
      simp only [sweepR] at h
      split at h
      · cases h
      split at h
      · cases h
      split_ifs at h
      · split at h
        · cases h
        split at h
        · cases h
        rw [ih _ _ _ h]; simp
      · rw [ih _ _ _ h]; simp
  have hL : ∀ (cut : Ten ℂ → Res (Ten ℂ × Mat ℂ × ℝ)) (bd k : ℕ) (v w : Sweep), sweepL cut bd k v = .ok w →
      w.ts.length = v.ts.length := by
    intro cut bd k
    induction k with
    | zero => intro v w h; simp only [sweepL] at h; cases h; rfl
    | succ k ih =>
      intro v w h
      simp only [sweepL] at h
      split at h
      · cases h
      split at h
      · cases h
      split_ifs at h
      · split at h
        · cases h
        split at h
        · cases h
        rw [ih _ _ h]; simp
      · rw [ih _ _ h]; simp
  unfold MPS.position at h
  split at h
  · cases h
  split at h
  · cases h
  simp only at h
  split_ifs at h
  · cases h; exact ⟨rfl, rfl⟩
  · split at h
    · cases h
    split at h
    · cases h
    split at h
    · cases h
    rename_i w hw
    cases h
    exact ⟨rfl, by simp [hR _ _ _ _ _ _ hw]⟩
  · split at h
    · cases h
    split at h
    · cases h
    split at h
    · cases h
    rename_i w hw
    cases h
    exact ⟨rfl, by simp [hL _ _ _ _ _ hw]⟩

theorem shift_cut {O : LinAlg} {pinv : Mat ℂ → Mat ℂ} {e : Eng} {m4 : MPS} {mpo : List (Mpo ℂ)} {lb rb : Env ℂ} {D : ℕ}
    (hl : e.mps.tensors.length = e.mps.N) (h : Idmrg.shift O pinv e = .ok (m4, mpo, lb, rb, D)) (L R : List (Env ℂ)) :
    ∃ m1 m2 m3 mat, Cut O pinv e ⟨m4, mpo, lb, rb, L, R⟩ D m1 m2 m3 m4 mat := by
  unfold Idmrg.shift at h
  simp only at h
  split at h
  · cases h
  rename_i m1 p1
  split at h
  · cases h
  rename_i lb hlb
  split at h
  · cases h
  rename_i acc hacc
  split at h
  · cases h
  rename_i m2 p2
  split at h
  · cases h
  rename_i rb hrb
  split at h
  · cases h
  rename_i m3 p3
  split at h
  · cases h
  rename_i new D' hnew
  split at h
  · cases h
  rename_i ts hts
  split at h
  · cases h
  rename_i lc hlc
  split at h
  · cases h
  rename_i mat hmat
  split at h
  · cases h
  rename_i m4 p4
  split at h
  · cases h
  rename_i mpo hmpo
  simp only [Except.ok.injEq, Prod.mk.injEq] at h
  obtain ⟨rfl, rfl, rfl, rfl, rfl⟩ := h
  have k1 := position_len p1
  have k2 := position_len p2
  have k3 := position_len p3
  unfold npDot at hlc hmat
  split_ifs at hlc with hc1
  split_ifs at hmat with hc2
  simp only [Except.ok.injEq] at hlc hmat
  subst hlc hmat
  have a1 := (cutHalf_ok _ _ _ _ _ hacc).1
  have a2 := (cutHalf_ok _ _ _ _ _ hnew).1
  have a3 := (copyBack_ok new e.mps.N 0 _ _ (by omega) hts (by simp)).1
  have a4 := lbLoop_isL _ _ _ _ _ _ hlb
  have a5 := rbLoop_isR _ _ _ _ _ _ hrb
  simp only [List.nil_append, List.drop_zero] at a1 a2 a3 a4 a5
  rw [show m3.tensors.length = e.mps.N by omega, a2, a1] at a3
  refine ⟨m1, m2, m3, (m1.mat.dot m3.conn).dot m3.mat, ⟨p1, p2, p3, hc1, hc2, rfl, ?_, rfl, hmpo, a4, a5, ⟨acc, new, hacc, hnew⟩⟩⟩
  rw [← a3]; exact p4

theorem update_steps {O : LinAlg} {pinv : Mat ℂ → Mat ℂ} {e e' : Eng} {D : ℕ} (hl : e.mps.tensors.length = e.mps.N)
    (h : Idmrg.update O pinv e = .ok (e', D)) : ∃ m1 m2 m3 m4 mat, Steps O pinv e e' D m1 m2 m3 m4 mat := by
  unfold Idmrg.update at h
  split at h
  · cases h
  rename_i m4 mpo lb rb D' hc
  split at h
  · cases h
  rename_i L hL
  split at h
  · cases h
  rename_i R hR
  simp only [Except.ok.injEq, Prod.mk.injEq] at h
  obtain ⟨rfl, rfl⟩ := h
  obtain ⟨m1, m2, m3, mat, st⟩ := shift_cut hl hc (lb :: L) (rb :: R)
  exact ⟨m1, m2, m3, m4, mat, ⟨st, ⟨L, hL, rfl⟩, ⟨R, hR, rfl⟩⟩⟩

/-- What is known of the three moves of the centre matrix for an even unit cell. -/
theorem steps_even {O : LinAlg} (hO : O.Spec) {e : Eng} {m1 m2 m3 : MPS} {l r h : ℕ}
    (hs : e.mps.effSth 1e-16 < 1e-15) (hw : e.mps.WF l r) (hN : e.mps.N = 2 * h)
    (p1 : e.mps.position O e.mps.N = .ok m1) (p2 : m1.position O ((e.mps.N / 2 : ℕ) : ℤ) = .ok m2)
    (p3 : m2.position O ((0 : ℕ) : ℤ) = .ok m3) :
    Moved e.mps m1 l r (2 * h) ∧ Moved m1 m2 l r h ∧ Moved m2 m3 l r 0 ∧
      m1.tensors.take h = m2.tensors.take h ∧ m2.tensors.drop h = m3.tensors.drop h := by
  have hh : e.mps.N / 2 = h := by omega
  have q1 := (position_moved hO hs hw p1).2.2
  have s1 : m1.effSth 1e-16 < 1e-15 := by simpa [MPS.effSth, q1.sth] using hs
  have q2 := (position_moved hO s1 q1.wf p2).2.2
  have s2 : m2.effSth 1e-16 < 1e-15 := by simpa [MPS.effSth, q2.sth] using s1
  have q3 := (position_moved hO s2 q2.wf p3).2.2
  simp only [Int.toNat_natCast] at q1 q2 q3
  rw [hh] at q2
  rw [hN] at q1
  refine ⟨q1, q2, q3, ?_, ?_⟩
  · apply List.ext_getElem?
    intro x
    simp only [List.getElem?_take]
    split_ifs with hx
    · exact (q2.same x (Or.inl ⟨by rw [q1.pos]; omega, hx⟩)).symm
    · rfl
  · apply List.ext_getElem?
    intro x
    simp only [List.getElem?_drop]
    exact (q3.same (h + x) (Or.inr ⟨by rw [q2.pos]; omega, by omega⟩)).symm

theorem cfgD_cfg {ts : List (Ten ℂ)} {s : List ℕ} : CfgD (ts.map Ten.d) s ↔ Cfg ts s := cfg_iff_map.symm

/-- The object before the last move of the centre matrix. -/
def glued (pinv : Mat ℂ → Mat ℂ) (h : ℕ) (m1 m2 m3 : MPS) : MPS :=
  { m3 with tensors := m1.tensors.drop h ++ m3.tensors.take h, pos := h, mat := (m1.mat.dot m3.conn).dot m3.mat
            conn := pinv m2.mat }

theorem glue_spec {O : LinAlg} (hO : O.Spec) {pinv : Mat ℂ → Mat ℂ} (hp : ∀ A, PinvSpec A (pinv A)) {e : Eng}
    {l r h : ℕ} (hs : e.mps.effSth 1e-16 < 1e-15) (hw : e.mps.WF l r) (hcr : e.mps.conn.r = r)
    (hcl : e.mps.conn.c = l) (hN : e.mps.N = 2 * h) {m1 m2 m3 : MPS}
    (p1 : e.mps.position O e.mps.N = .ok m1) (p2 : m1.position O ((e.mps.N / 2 : ℕ) : ℤ) = .ok m2)
    (p3 : m2.position O ((0 : ℕ) : ℤ) = .ok m3) :
    (glued pinv h m1 m2 m3).WF m2.mat.r m2.mat.c ∧ (glued pinv h m1 m2 m3).ds = e.mps.ds.rotate h ∧
      ∃ X Y p, Exchanged (e.mps.ds.take h) (e.mps.ds.drop h) e.mps.amp e.mps.conn (glued pinv h m1 m2 m3).amp
        (pinv m2.mat) X Y p := by
  obtain ⟨q1, q2, q3, hA, hB⟩ := steps_even hO hs hw hN p1 p2 p3
  have hh : e.mps.N / 2 = h := by omega
  have s1 : m1.effSth 1e-16 < 1e-15 := by simpa [MPS.effSth, q1.sth] using hs
  have s2 : m2.effSth 1e-16 < 1e-15 := by simpa [MPS.effSth, q2.sth] using s1
  have s3 : m3.effSth 1e-16 < 1e-15 := by simpa [MPS.effSth, q3.sth] using s2
  have n1 := q1.wf.len
  have n2 := q2.wf.len
  have n3 := q3.wf.len
  rw [q1.N, hN] at n1
  rw [q2.N, q1.N, hN] at n2
  rw [q3.N, q2.N, q1.N, hN] at n3
  have hc1 : m1.conn = e.mps.conn := q1.conn
  have hc3 : m3.conn = e.mps.conn := by rw [q3.conn, q2.conn, hc1]
  -- shapes
  have w1l := q1.wf.left
  have w1r := q1.wf.right
  rw [q1.pos, List.take_of_length_le (by omega)] at w1l
  rw [q1.pos, List.drop_eq_nil_of_le (by omega)] at w1r
  have w1r : m1.mat.c = r := w1r
  have w2l := q2.wf.left
  have w2r := q2.wf.right
  rw [q2.pos] at w2l w2r
  have w3l := q3.wf.left
  have w3r := q3.wf.right
  rw [q3.pos] at w3l w3r
  simp only [List.take_zero, List.drop_zero] at w3l w3r
  have w3l : l = m3.mat.r := w3l
  obtain ⟨u, u1, u2⟩ := linked_take w1l h
  obtain ⟨v, v1, v2⟩ := linked_take w3r h
  have hu' : u = m2.mat.r := by
    rw [hA] at u1; exact linked_rdim_unique u1 w2l
  have hv' : v = m2.mat.c := by
    rw [← hB] at v2; exact linked_unique_l v2 w2r rfl
  subst hu' hv'
  -- the glued object
  set g : MPS := glued pinv h m1 m2 m3 with hg
  have ld : (m1.tensors.drop h).length = h := by simp; omega
  have gt : g.tensors.take g.pos = m1.tensors.drop h := by
    simp only [hg, glued]; rw [List.take_left' ld]
  have gd : g.tensors.drop g.pos = m3.tensors.take h := by
    simp only [hg, glued]; rw [List.drop_left' ld]
  have gwf : g.WF m2.mat.r m2.mat.c := by
    refine ⟨?_, ?_, ?_, ?_⟩
    · simp [hg, glued, q3.N, q2.N, q1.N, hN]; omega
    · simp [hg, glued, q3.N, q2.N, q1.N, hN]; omega
    · rw [gt]; exact u2
    · rw [gd]; exact v1
  have conn4 : g.conn = pinv m2.mat := rfl
  have P := hp m2.mat
  have ds1 : m1.tensors.map Ten.d = e.mps.ds := q1.ds
  have ds2 : m2.tensors.map Ten.d = e.mps.ds := by rw [← ds1]; exact q2.ds
  have ds3 : m3.tensors.map Ten.d = e.mps.ds := by rw [← ds2]; exact q3.ds
  have ds0 : e.mps.tensors.map Ten.d = e.mps.ds := rfl
  have dslen : e.mps.ds.length = 2 * h := by simp [MPS.ds, hw.len, hN]
  have hgds : g.ds = e.mps.ds.rotate h := by
    simp only [MPS.ds, hg, glued, List.map_append, List.map_drop, List.map_take]
    rw [show m1.tensors.map Ten.d = e.mps.tensors.map Ten.d from ds1,
      show m3.tensors.map Ten.d = e.mps.tensors.map Ten.d from ds3]
    rw [List.rotate_eq_drop_append_take (by simp [hw.len]; omega)]
  refine ⟨gwf, hgds, ?_⟩
  -- the two halves
  obtain ⟨p, hp0, hZ⟩ := position_Z hO s1 p2
  have t2 := tail_position (b := h) (by rw [q1.pos]; omega) (by rw [q1.pos, q1.N, hN]) (by rw [n1, q1.N, hN])
    (by rw [← hh]; exact p2)
  have h3 := head_position (by rw [q2.pos, q2.N, q1.N, hN]; omega) (by rw [n2, q2.N, q1.N, hN]) p3
  rw [q2.pos] at h3
  have tw : (tail m1 h).WF m2.mat.r r := by
    refine ⟨by simp [tail, n1, q1.N, hN], by simp [tail, q1.pos, q1.N, hN], ?_, ?_⟩
    · simp only [tail, q1.pos]
      rw [List.take_of_length_le (by simp; omega)]; exact u2
    · simp only [tail, q1.pos]
      rw [List.drop_eq_nil_of_le (by simp; omega)]; exact w1r
  have tm := (position_moved hO (show (tail m1 h).effSth 1e-16 < 1e-15 from s1) tw t2).2.2
  have hwf : (head m2 h).WF l m2.mat.c := by
    refine ⟨by simp [head, n2]; omega, by simp [head, q2.pos], ?_, ?_⟩
    · simp only [head, q2.pos, List.take_take, min_self]; exact w2l
    · simp only [head, q2.pos]
      rw [List.drop_eq_nil_of_le (by simp)]; rfl
  have hm3 := (position_moved hO (show (head m2 h).effSth 1e-16 < 1e-15 from s2) hwf h3).2.2
  let X : List ℕ → ℕ → ℕ → ℂ := fun b => mmul m2.mat.c m2.mat.v (chain (m2.tensors.drop h) b)
  let Y : List ℕ → ℕ → ℕ → ℂ := fun a i j => m2.Z * mmul m2.mat.r (chain (m2.tensors.take h) a) m2.mat.v i j
  have cfgs : ∀ a b, CfgD (e.mps.ds.take h) a → CfgD (e.mps.ds.drop h) b →
      a.length = h ∧ b.length = h ∧ Cfg e.mps.tensors (a ++ b) ∧ Cfg m1.tensors (a ++ b) ∧ Cfg (m1.tensors.drop h) b ∧
        Cfg (m2.tensors.take h) a ∧ Cfg g.tensors (b ++ a) := by
    intro a b ha hb
    have la : a.length = h := by have := ha.length_eq; simp [dslen] at this; omega
    have lb : b.length = h := by have := hb.length_eq; simp [dslen] at this; omega
    have hab : CfgD e.mps.ds (a ++ b) := by
      rw [← List.take_append_drop h e.mps.ds]; exact List.rel_append ha hb
    have hba : CfgD g.ds (b ++ a) := by
      rw [hgds, List.rotate_eq_drop_append_take (by omega)]; exact List.rel_append hb ha
    refine ⟨la, lb, cfgD_cfg.mp hab, cfgD_cfg.mp (by rw [ds1]; exact hab), cfgD_cfg.mp ?_, cfgD_cfg.mp ?_, cfgD_cfg.mp hba⟩
    · rw [List.map_drop, ds1]; exact hb
    · rw [List.map_take, ds2]; exact ha
  have hX : ∀ a b, CfgD (e.mps.ds.take h) a → CfgD (e.mps.ds.drop h) b → ∀ i < m2.mat.r, ∀ j < r,
      m2.Z * X b i j = m1.Z * mmul m1.mat.r (chain (m1.tensors.drop h) b) m1.mat.v i j := by
    intro a b ha hb i hi j hj
    obtain ⟨la, lb, -, -, c1, -, -⟩ := cfgs a b ha hb
    have k := tm.amp b c1 i hi j
    rw [amp_eq_split, amp_eq_split, split_mmul, split_mmul] at k
    simp only [tail, q1.pos, q2.pos, Nat.sub_self, List.take_zero, List.drop_zero, chain_nil] at k
    rw [delta_mmul _ _ hi, show 2 * h - h = h by omega, List.take_of_length_le (by omega),
      List.take_of_length_le (by omega), List.drop_eq_nil_of_le (show (m1.tensors.drop h).length ≤ h by omega),
      List.drop_eq_nil_of_le (show b.length ≤ h by omega), chain_nil] at k
    rw [show X b i j = mmul m2.mat.c m2.mat.v (chain (m2.tensors.drop h) b) i j from rfl, k]
    congr 1
    exact mmul_congr (fun _ _ => rfl) fun x _ => mmul_delta _ _ (by rw [w1r]; exact hj)
  have hY : ∀ a b, CfgD (e.mps.ds.take h) a → CfgD (e.mps.ds.drop h) b → ∀ i < l, ∀ j < m2.mat.c,
      Y a i j = m3.Z * mmul m3.mat.c m3.mat.v (chain (m3.tensors.take h) a) i j := by
    intro a b ha hb i hi j hj
    obtain ⟨la, lb, -, -, -, c1, -⟩ := cfgs a b ha hb
    have k := hm3.amp a c1 i hi j
    rw [amp_eq_split, amp_eq_split, split_mmul, split_mmul] at k
    simp only [head, q3.pos, q2.pos, List.take_zero, List.drop_zero, List.take_take, min_self, Nat.zero_min, chain_nil] at k
    rw [delta_mmul _ _ (by omega), List.take_of_length_le (show a.length ≤ h by omega), List.drop_eq_nil_of_le (by simp),
      List.drop_eq_nil_of_le (by omega), chain_nil] at k
    rw [k]
    show m2.Z * _ = m2.Z * _
    congr 1
    exact mmul_congr (fun _ _ => rfl) fun x _ => (mmul_delta _ _ hj).symm
  refine ⟨X, Y, p, hp0, ?_, ?_⟩
  · intro a b ha hb i hi j hj
    obtain ⟨la, lb, c0, c1, -, -, -⟩ := cfgs a b ha hb
    rw [hcl] at hi
    rw [← q1.amp _ c0 i hi j, ← q2.amp _ c1 i hi j, amp_eq_split, split_mmul, q2.pos, List.take_left' la,
      List.drop_left' la, P.r, P.c]
    simp only [X, Y]
    rw [mmul_smul_left]
    congr 1
    rw [mmul_assoc]
    refine mmul_congr (fun _ _ => rfl) fun k hk => ?_
    rw [← mmul_assoc m2.mat.c m2.mat.r, ← mmul_assoc]
    refine mmul_congr (fun k' hk' => ?_) fun _ _ => rfl
    have := P.one k hk k' hk'
    rw [← this]
    simp only [mmul, sum_mul]
    rw [sum_comm]
  · intro a b ha hb i hi j hj
    obtain ⟨la, lb, -, -, -, -, c2⟩ := cfgs a b ha hb
    rw [P.c] at hi
    rw [P.r] at hj
    rw [amp_eq_split, split_mmul, gt, gd, hcr, hcl]
    simp only [hg, glued]
    rw [List.take_left' lb, List.drop_left' lb, show ((m1.mat.dot m3.conn).dot m3.mat).v = mmul m3.conn.c (mmul m1.mat.c m1.mat.v m3.conn.v) m3.mat.v from rfl,
      show ((m1.mat.dot m3.conn).dot m3.mat).r = m1.mat.r from rfl, show ((m1.mat.dot m3.conn).dot m3.mat).c = m3.mat.c from rfl,
      mmul_assoc, hc3, mmul_assoc, ← mmul_assoc m1.mat.r,
      hcl, w1r]
    have e1 : m3.Z * mmul r (mmul m1.mat.r (chain (m1.tensors.drop h) b) m1.mat.v)
        (mmul l e.mps.conn.v (mmul m3.mat.c m3.mat.v (chain (m3.tensors.take h) a))) i j
        = mmul r (mmul m1.mat.r (chain (m1.tensors.drop h) b) m1.mat.v) (mmul l e.mps.conn.v (Y a)) i j := by
      rw [← mmul_smul_right]
      refine mmul_congr (fun _ _ => rfl) fun k hk => ?_
      rw [← mmul_smul_right]
      exact mmul_congr (fun _ _ => rfl) fun k' hk' => (hY a b ha hb k' hk' j hj).symm
    rw [e1]
    by_cases hz : m1.Z = 0
    · have hz2 : m2.Z = 0 := by rw [hZ, hz, zero_mul]
      have hY0 : Y a = fun _ _ => 0 := by funext x y; simp [Y, hz2]
      rw [hY0]
      simp [mmul]
    · rw [← mmul_smul_left]
      refine mmul_congr (fun k hk => ?_) fun _ _ => rfl
      have := hX a b ha hb i hi k hk
      rw [hZ, mul_assoc] at this
      exact (mul_left_cancel₀ hz this).symm


/-- **C58 (even unit cells): the halves of the unit cell are exchanged.**  If the update succeeds on a well-formed
object with an even number of sites, the new object is well formed, its outer bonds fit to the new connector, its
position is `0`, local dimensions and MPO are rotated by half a cell, and the old and the new unit cell with their
connectors are the same two half cells glued together in the two possible orders. -/
theorem C58_exchange {O : LinAlg} (hO : O.Spec) {pinv : Mat ℂ → Mat ℂ} (hp : ∀ A, PinvSpec A (pinv A)) {e e' : Eng}
    {D l r h : ℕ} (hs : e.mps.effSth 1e-16 < 1e-15) (hw : e.mps.WF l r) (hcr : e.mps.conn.r = r)
    (hcl : e.mps.conn.c = l) (hN : e.mps.N = 2 * h) (hm : e.mpo.length = e.mps.N)
    (hu : Idmrg.update O pinv e = .ok (e', D)) :
    e'.mps.WF e'.mps.conn.c e'.mps.conn.r ∧ e'.mps.pos = 0 ∧ e'.mps.N = e.mps.N ∧
      e'.mps.ds = e.mps.ds.rotate h ∧ e'.mpo = e.mpo.rotate h ∧
      ∃ X Y p, Exchanged (e.mps.ds.take h) (e.mps.ds.drop h) e.mps.amp e.mps.conn e'.mps.amp e'.mps.conn X Y p := by
  obtain ⟨m1, m2, m3, m4, mat, st⟩ := update_steps hw.len hu
  obtain ⟨q1, q2, q3, hA, hB⟩ := steps_even hO hs hw hN st.p1 st.p2 st.p3
  obtain ⟨gwf, hgds, X, Y, p, hX⟩ := glue_spec hO hp hs hw hcr hcl hN st.p1 st.p2 st.p3
  have hh : e.mps.N / 2 = h := by omega
  have n1 := q1.wf.len
  have n3 := q3.wf.len
  rw [q1.N, hN] at n1
  rw [q3.N, q2.N, q1.N, hN] at n3
  have p4 := st.p4
  rw [hh, hN, show 2 * h - h = h by omega, List.take_of_length_le (show (m1.tensors.drop h).length ≤ h by simp; omega),
    List.take_of_length_le (show (m1.tensors.drop h ++ m3.tensors.take h).length ≤ 2 * h by simp; omega), st.hmat] at p4
  have sg : (glued pinv h m1 m2 m3).effSth 1e-16 < 1e-15 := by
    simpa [MPS.effSth, glued, q3.sth, q2.sth, q1.sth] using hs
  have q4 := (position_moved hO sg gwf p4).2.2
  simp only [Int.toNat_natCast] at q4
  have conn4 : m4.conn = pinv m2.mat := q4.conn
  have P := hp m2.mat
  rw [st.mps]
  refine ⟨?_, q4.pos, ?_, ?_, ?_, X, Y, p, hX.pos, ?_, ?_⟩
  · rw [conn4, P.r, P.c]; exact q4.wf
  · rw [q4.N]; simp [glued, q3.N, q2.N, q1.N]
  · rw [q4.ds, hgds]
  · have hm' := st.mpo
    rw [hh, C47_rotates e.mpo h (by omega)] at hm'
    simpa using hm'.symm
  · rw [conn4]; exact hX.old
  · intro a b ha hb i hi j hj
    rw [conn4] at hi hj
    rw [← hX.new a b ha hb i hi j hj]
    refine q4.amp _ (cfgD_cfg.mp ?_) i (by rw [← P.c]; exact hi) j
    rw [show (glued pinv h m1 m2 m3).tensors.map Ten.d = e.mps.ds.rotate h from hgds,
      List.rotate_eq_drop_append_take (by simp [MPS.ds, hw.len]; omega)]
    exact List.rel_append hb ha

/-- **C58 (even unit cells): the infinite chain is the same chain, read from the middle of the cell.**  A row of `k+1`
new unit cells equals, up to a positive factor, the second half of an old cell, `k` complete old cells and the first
half of an old cell, for every number of cells and all their configurations. -/
theorem C58_shift {dL dR : List ℕ} {M M' X Y : List ℕ → ℕ → ℕ → ℂ} {C C' : Mat ℂ} {p : ℝ}
    (hE : Exchanged dL dR M C M' C' X Y p) (ab : List (List ℕ × List ℕ))
    (hab : ∀ x ∈ ab, CfgD dL x.1 ∧ CfgD dR x.2) :
    ∀ (b0 aL : List ℕ), CfgD dR b0 → CfgD dL aL → ∀ i < C'.c, ∀ j < C'.r,
    cellRow M' C' (List.zipWith (fun b a => b ++ a) (b0 :: ab.map Prod.snd) (ab.map Prod.fst))
        (M' ((b0 :: ab.map Prod.snd).getLast (by simp) ++ aL)) i j
      = (p : ℂ) ^ (ab.length + 1) * mmul C.r (X b0) (mmul C.c C.v
          (cellRow M C (ab.map fun x => x.1 ++ x.2) (Y aL))) i j := by
  induction ab with
  | nil =>
    intro b0 aL hb ha i hi j hj
    simpa [cellRow] using hE.new aL b0 ha hb i hi j hj
  | cons x ab ih =>
    intro b0 aL hb ha i hi j hj
    obtain ⟨h1, h2⟩ := hab x (by simp)
    have ih' := ih (fun y hy => hab y (by simp [hy])) x.2 aL h2 ha
    simp only [List.map_cons, List.zipWith_cons_cons, cellRow, List.getLast_cons_cons, List.length_cons] at ih' ⊢
    set V := cellRow M' C' (List.zipWith (fun b a => b ++ a) (x.2 :: ab.map Prod.snd) (ab.map Prod.fst))
        (M' ((x.2 :: ab.map Prod.snd).getLast (by simp) ++ aL)) with hV
    set T := mmul C.c C.v (cellRow M C (ab.map fun x => x.1 ++ x.2) (Y aL)) with hT
    have e1 : mmul C'.r (M' (b0 ++ x.1)) (mmul C'.c C'.v V) i j
        = mmul C'.r (fun i j => (p : ℂ) * mmul C.r (X b0) (mmul C.c C.v (Y x.1)) i j)
            (mmul C'.c C'.v fun i j => (p : ℂ) ^ (ab.length + 1) * mmul C.r (X x.2) T i j) i j := by
      refine mmul_congr (fun k hk => hE.new _ _ h1 hb i hi k hk) fun k _ => ?_
      exact mmul_congr (fun _ _ => rfl) fun k' hk' => ih' k' hk' j hj
    rw [e1, mmul_smul_left]
    have e2 : mmul C'.c C'.v (fun i j => (p : ℂ) ^ (ab.length + 1) * mmul C.r (X x.2) T i j)
        = fun i j => (p : ℂ) ^ (ab.length + 1) * mmul C'.c C'.v (mmul C.r (X x.2) T) i j := by
      funext i j; rw [mmul_smul_right]
    rw [e2, mmul_smul_right, ← mul_assoc, ← pow_succ']
    congr 1
    rw [mmul_assoc, mmul_assoc]
    refine mmul_congr (fun _ _ => rfl) fun k _ => mmul_congr (fun _ _ => rfl) fun k' hk' => ?_
    have e3 : mmul C'.r (Y x.1) (mmul C'.c C'.v (mmul C.r (X x.2) T))
        = mmul C.r (mmul C'.r (Y x.1) (mmul C'.c C'.v (X x.2))) T := by rw [mmul_assoc, mmul_assoc]
    rw [e3]
    exact mmul_congr (fun k'' hk'' => (hE.old _ _ h1 h2 k' hk' k'' hk'').symm) fun _ _ => rfl

/-- **C58 (boundaries).**  The new boundary environments are the old ones grown by exactly the half cells that were cut
off: there are tensors `A` of the first and `B` of the second half and a centre matrix `c` which represent the old cell,
`B` is right-orthonormal, `A` left-orthonormal if the tensors left of the centre matrix are, and the new left boundary is the old one contracted with `A` and the first half of the MPO,
the new right boundary the old one contracted with `B` and the second half of the MPO; the new connector is the
pseudo-inverse of `c`, and the environments of the engine are those of the new boundaries. -/
theorem C58_boundaries {O : LinAlg} (hO : O.Spec) {pinv : Mat ℂ → Mat ℂ} {e e' : Eng}
    {D l r h : ℕ} (hs : e.mps.effSth 1e-16 < 1e-15) (hw : e.mps.WF l r) (hN : e.mps.N = 2 * h)
    (hm : e.mpo.length = e.mps.N) (hu : Idmrg.update O pinv e = .ok (e', D)) :
    ∃ (A B : List (Ten ℂ)) (c : Mat ℂ) (Z : ℂ), A.length = h ∧ B.length = h ∧
      Linked l A c.r ∧ Linked c.c B r ∧ (∀ t ∈ B, RightOrth t) ∧
      ((∀ x t, e.mps.tensors[x]? = some t → x < e.mps.pos → x < h → LeftOrth t) → ∀ t ∈ A, LeftOrth t) ∧
      (∀ s, Cfg e.mps.tensors s → ∀ i < l, ∀ j, e.mps.amp s i j = Z * split A c B (s.take h) (s.drop h) i j) ∧
      IsL e.lb A (e.mpo.take h) A e'.lb ∧ IsR e.rb B (e.mpo.drop h) B e'.rb ∧ e'.mps.conn = pinv c ∧
      (∃ L, getL e'.mps.tensors e'.mpo e'.lb = .ok L ∧ e'.L = e'.lb :: L) ∧
      (∃ R, getR e'.mps.tensors e'.mpo e'.rb = .ok R ∧ e'.R = e'.rb :: R) := by
  obtain ⟨m1, m2, m3, m4, mat, st⟩ := update_steps hw.len hu
  obtain ⟨q1, q2, q3, hA, hB⟩ := steps_even hO hs hw hN st.p1 st.p2 st.p3
  have hh : e.mps.N / 2 = h := by omega
  have n2 := q2.wf.len
  rw [q2.N, q1.N, hN] at n2
  have w2l := q2.wf.left
  have w2r := q2.wf.right
  rw [q2.pos] at w2l w2r
  have lb := st.lb
  have rb := st.rb
  rw [hh, hA] at lb
  rw [hh, hN, show 2 * h - h = h by omega, List.take_of_length_le (show (m2.tensors.drop h).length ≤ h by simp; omega),
    List.take_of_length_le (show (e.mpo.drop h).length ≤ h by simp; omega)] at rb
  refine ⟨m2.tensors.take h, m2.tensors.drop h, m2.mat, m2.Z, by simp; omega, by simp; omega, w2l, w2r, ?_, ?_, ?_, lb, rb,
    by rw [st.mps, position_conn st.p4], ?_, ?_⟩
  · intro t ht
    obtain ⟨x, hx⟩ := List.mem_iff_getElem?.mp ht
    rw [List.getElem?_drop] at hx
    refine q2.right (h + x) t hx (by omega) ?_
    rw [q1.pos]
    have := (List.getElem?_eq_some_iff.mp hx).1
    omega
  · intro h0 t ht
    rw [← hA] at ht
    obtain ⟨x, hx⟩ := List.mem_iff_getElem?.mp ht
    rw [List.getElem?_take] at hx
    split_ifs at hx with hxh
    by_cases hxp : x < e.mps.pos
    · rw [q1.same x (Or.inl ⟨hxp, by omega⟩)] at hx
      exact h0 x t hx hxp hxh
    · exact q1.left x t hx (by omega) (by omega)
  · intro s hsc i hi j
    have hsc1 : Cfg m1.tensors s := by
      rw [cfg_iff_map] at hsc ⊢
      rw [show m1.tensors.map Ten.d = e.mps.tensors.map Ten.d from q1.ds]; exact hsc
    rw [← q1.amp s hsc i hi j, ← q2.amp s hsc1 i hi j, amp_eq_split, q2.pos]
  · rw [st.mps]; exact st.L
  · rw [st.mps]; exact st.R

/-- **C58 (bond dimensions).**  If no bond exceeds what the other legs of its tensors allow, the update only rotates the
shapes of the tensors by half a cell, and the returned number is the largest bond dimension of the cell. -/
theorem C58_dim {O : LinAlg} (hO : O.Spec) {pinv : Mat ℂ → Mat ℂ} (hp : ∀ A, PinvSpec A (pinv A)) {e e' : Eng}
    {D D0 h : ℕ} (hs : e.mps.sth < 1e-15) (hw : e.mps.WF D0 D0) (hcr : e.mps.conn.r = D0) (hcl : e.mps.conn.c = D0)
    (hsq : e.mps.mat.r = e.mps.mat.c) (had : ∀ t ∈ e.mps.tensors, t.Adm) (hN : e.mps.N = 2 * h) (hh : 1 ≤ h)
    (hu : Idmrg.update O pinv e = .ok (e', D)) :
    e'.mps.tensors.map Ten.shape = (e.mps.tensors.map Ten.shape).rotate h ∧
      (∀ t ∈ e.mps.tensors, t.l ≤ D) ∧ ∃ t ∈ e.mps.tensors, t.l = D := by
  have hs' := effSth_default hs
  obtain ⟨m1, m2, m3, m4, mat, st⟩ := update_steps hw.len hu
  obtain ⟨q1, q2, q3, hA, hB⟩ := steps_even hO hs' hw hN st.p1 st.p2 st.p3
  obtain ⟨gwf, -⟩ := glue_spec hO hp hs' hw hcr hcl hN st.p1 st.p2 st.p3
  have h2 : e.mps.N / 2 = h := by omega
  obtain ⟨sh1, sq1⟩ := position_shape hO hs st.p1 had hsq
  have ad1 := adm_shape sh1 had
  have hs1 : m1.sth < 1e-15 := by rw [q1.sth]; exact hs
  obtain ⟨sh2, sq2⟩ := position_shape hO hs1 st.p2 ad1 sq1
  have ad2 := adm_shape sh2 ad1
  have hs2 : m2.sth < 1e-15 := by rw [q2.sth]; exact hs1
  obtain ⟨sh3, sq3⟩ := position_shape hO hs2 st.p3 ad2 sq2
  rw [sh2, sh1] at sh3
  have hs3 : m3.sth < 1e-15 := by rw [q3.sth]; exact hs2
  have n0 : e.mps.tensors.length = 2 * h := by rw [hw.len, hN]
  have n1 : m1.tensors.length = 2 * h := by rw [q1.wf.len, q1.N, hN]
  have n3 : m3.tensors.length = 2 * h := by rw [q3.wf.len, q3.N, q2.N, q1.N, hN]
  have w1r := q1.wf.right
  rw [q1.pos, List.drop_eq_nil_of_le (by omega)] at w1r
  have w1r : m1.mat.c = D0 := w1r
  have w3l := q3.wf.left
  rw [q3.pos] at w3l
  simp only [List.take_zero] at w3l
  have w3l : D0 = m3.mat.r := w3l
  have p4 := st.p4
  rw [h2, hN, show 2 * h - h = h by omega, List.take_of_length_le (show (m1.tensors.drop h).length ≤ h by simp; omega),
    List.take_of_length_le (show (m1.tensors.drop h ++ m3.tensors.take h).length ≤ 2 * h by simp; omega), st.hmat] at p4
  have shg : (m1.tensors.drop h ++ m3.tensors.take h).map Ten.shape = (e.mps.tensors.map Ten.shape).rotate h := by
    rw [List.rotate_eq_drop_append_take (by simp; omega), List.map_append, List.map_drop, List.map_take, sh1, sh3]
  have adg : ∀ t ∈ m1.tensors.drop h ++ m3.tensors.take h, t.Adm := by
    refine adm_shape (ts := e.mps.tensors.rotate h) (by rw [shg, List.map_rotate]) fun t ht => had t ?_
    exact List.mem_rotate.mp ht
  obtain ⟨sh4, -⟩ := position_shape (m := glued pinv h m1 m2 m3) hO hs3 p4 adg (by
    show m1.mat.r = m3.mat.c
    rw [sq1, w1r, w3l, sq3])
  refine ⟨by rw [st.mps, sh4]; exact shg, ?_⟩
  obtain ⟨acc, new, d1, d2⟩ := st.dim
  rw [h2, hN, show 2 * h - h = h by omega] at d1
  rw [h2] at d2
  obtain ⟨-, a2, a3⟩ := cutHalf_dim _ _ _ _ _ d1
  obtain ⟨b1, b2, b3⟩ := cutHalf_dim _ _ _ _ _ d2
  simp only [List.drop_zero] at a2 a3 b1 b2 b3
  rw [List.take_of_length_le (show (m1.tensors.drop h).length ≤ h by simp; omega)] at a2 a3
  have tr : ∀ {ts ts' : List (Ten ℂ)}, ts'.map Ten.shape = ts.map Ten.shape → ∀ t ∈ ts, ∃ t' ∈ ts', t'.l = t.l := by
    intro ts ts' hsh t ht
    have : t.shape ∈ ts'.map Ten.shape := by rw [hsh]; exact List.mem_map_of_mem ht
    obtain ⟨t', i, j⟩ := List.mem_map.mp this
    exact ⟨t', i, congrArg Prod.fst j⟩
  have e1 : (m1.tensors.drop h).map Ten.shape = (e.mps.tensors.drop h).map Ten.shape := by
    rw [List.map_drop, sh1, List.map_drop]
  have e3 : (m3.tensors.take h).map Ten.shape = (e.mps.tensors.take h).map Ten.shape := by
    rw [List.map_take, sh3, List.map_take]
  have back : ∀ {x}, (∃ t ∈ m1.tensors.drop h, t.l = x) ∨ (∃ t ∈ m3.tensors.take h, t.l = x) →
      ∃ t ∈ e.mps.tensors, t.l = x := by
    rintro x (⟨t, i, j⟩ | ⟨t, i, j⟩)
    · obtain ⟨t', i', j'⟩ := tr e1.symm t i
      exact ⟨t', List.mem_of_mem_drop i', j'.trans j⟩
    · obtain ⟨t', i', j'⟩ := tr e3.symm t i
      exact ⟨t', List.mem_of_mem_take i', j'.trans j⟩
  constructor
  · intro t ht
    rw [← List.take_append_drop h e.mps.tensors] at ht
    rcases List.mem_append.mp ht with i | i
    · obtain ⟨t', i', j'⟩ := tr e3 t i
      rw [← j']; exact b2 t' i'
    · obtain ⟨t', i', j'⟩ := tr e1 t i
      rw [← j']; exact (a2 t' i').trans b1
  · rcases b3 with b3 | b3
    · rcases a3 with a3 | a3
      · have hd0 : D = 0 := by omega
        have hne : (m3.tensors.take h) ≠ [] := by
          intro h0; have := congrArg List.length h0; rw [List.length_take, n3, List.length_nil] at this; omega
        obtain ⟨t, ht⟩ := List.exists_mem_of_ne_nil _ hne
        refine back (Or.inr ⟨t, ht, ?_⟩)
        have := b2 t ht
        omega
      · exact back (Or.inl (by rw [b3]; exact a3))
    · exact back (Or.inr b3)

/-- **C58 is false for odd unit cells.**  For `N=2h+1 ≥ 3` sites the right part of the new cell has `h+1` tensors, but
the centre matrix is declared to sit on bond `h`; whenever the dimension of the bond before the last site differs from
the one of the cell boundary, the update cannot succeed. -/
theorem C58_violated_odd {O : LinAlg} {pinv : Mat ℂ → Mat ℂ} {e : Eng} {h : ℕ} {t : Ten ℂ}
    (hl : e.mps.tensors.length = e.mps.N) (hh : 1 ≤ h) (hN : e.mps.N = 2 * h + 1) (hpos : e.mps.pos = e.mps.N)
    (ht : e.mps.tensors[2 * h - 1]? = some t) (hd : t.r ≠ e.mps.mat.r) :
    ∀ x, Idmrg.update O pinv e ≠ .ok x := by
  rintro ⟨e', D⟩ hu
  obtain ⟨m1, m2, m3, m4, mat, st⟩ := update_steps hl hu
  have h1 : m1 = e.mps := by
    have p1 := st.p1
    unfold MPS.position at p1
    rw [if_neg (by simp), if_neg (by simp)] at p1
    simp only [Int.toNat_natCast] at p1
    rw [if_pos hpos.symm] at p1
    cases p1; rfl
  subst h1
  have hh2 : e.mps.N / 2 = h := by omega
  have p4 := st.p4
  unfold MPS.position at p4
  rw [if_neg (by simp), if_neg (by simp)] at p4
  simp only [Int.toNat_natCast, hh2] at p4
  rw [if_neg (by omega), if_neg (by omega)] at p4
  have hg : getT (((e.mps.tensors.drop h).take (e.mps.N - h) ++ m3.tensors.take h).take e.mps.N) (h - 1) = .ok t := by
    unfold getT
    rw [List.getElem?_take, if_pos (by omega), List.getElem?_append_left (by simp; omega), List.getElem?_take,
      if_pos (by omega), List.getElem?_drop, show h + (h - 1) = 2 * h - 1 by omega, ht]
  rw [hg] at p4
  simp only at p4
  have : absorbR t mat = .error .value := by
    unfold absorbR
    rw [if_neg (by rw [st.hmat]; exact hd)]
  rw [this] at p4
  cases p4

/-! ## Totality -/

theorem lbLoop_ok {ts : List (Ten ℂ)} {mpo : List (Mpo ℂ)} : ∀ (k n : ℕ) (E : Env ℂ) (x y : ℕ), E.u = E.w →
    Linked E.u ((ts.drop n).take k) x → MLinked E.m ((mpo.drop n).take k) y →
    Fits ((ts.drop n).take k) ((mpo.drop n).take k) ((ts.drop n).take k) → n + k ≤ ts.length →
    ∃ E', lbLoop ts mpo k n E = .ok E' := by
  intro k
  induction k with
  | zero => intro n E x y _ _ _ _ _; exact ⟨E, rfl⟩
  | succ k ih =>
    intro n E x y hE h1 h2 h3 hl
    obtain ⟨A, hA⟩ : ∃ A, ts[n]? = some A := ⟨_, List.getElem?_eq_getElem (by omega)⟩
    rw [drop_getElem? hA] at h1 h3
    have hW : ∃ W, mpo[n]? = some W := by
      have := (fits_length h3).1
      refine ⟨_, List.getElem?_eq_getElem (i := n) ?_⟩
      simp at this; omega
    obtain ⟨W, hW⟩ := hW
    rw [drop_getElem? hW] at h2 h3
    simp only [List.take_succ_cons] at h1 h2 h3
    have hadd : ∃ E', addLayerR E A W A = .ok E' ∧ E'.u = A.r ∧ E'.w = A.r ∧ E'.m = W.r := by
      unfold addLayerR
      rw [if_pos ⟨h1.1.symm, h2.1.symm, h3.1, by rw [← hE]; exact h1.1.symm, h3.2.1⟩]
      exact ⟨_, rfl, rfl, rfl, rfl⟩
    obtain ⟨E', e1, e2, e3, e4⟩ := hadd
    simp only [lbLoop, getE_some hA, getE_some hW, e1]
    exact ih (n + 1) E' x y (by rw [e2, e3]) (by rw [e2]; exact h1.2) (by rw [e4]; exact h2.2) h3.2.2 (by omega)

theorem fits_unsnoc {As : List (Ten ℂ)} {Ws : List (Mpo ℂ)} {A : Ten ℂ} {W : Mpo ℂ}
    (h : Fits (As ++ [A]) (Ws ++ [W]) (As ++ [A])) : Fits As Ws As ∧ A.d = W.din ∧ W.dout = A.d := by
  induction As generalizing Ws with
  | nil =>
    cases Ws with
    | nil => exact ⟨trivial, h.1, h.2.1⟩
    | cons V Ws =>
      have := (fits_length h).1
      simp at this
  | cons B As ih =>
    cases Ws with
    | nil =>
      have := (fits_length h).1
      simp at this
    | cons V Ws =>
      obtain ⟨i1, i2⟩ := ih h.2.2
      exact ⟨⟨h.1, h.2.1, i1⟩, i2⟩

theorem rbLoop_ok {ts : List (Ten ℂ)} {mpo : List (Mpo ℂ)} {lo : ℕ} : ∀ (k : ℕ) (E : Env ℂ) (x y : ℕ), E.u = E.w →
    Linked x ((ts.drop lo).take k) E.u → MLinked y ((mpo.drop lo).take k) E.m →
    Fits ((ts.drop lo).take k) ((mpo.drop lo).take k) ((ts.drop lo).take k) → lo + k ≤ ts.length →
    ∃ E', rbLoop ts mpo lo k E = .ok E' := by
  intro k
  induction k with
  | zero => intro E x y _ _ _ _ _; exact ⟨E, rfl⟩
  | succ k ih =>
    intro E x y hE h1 h2 h3 hl
    obtain ⟨A, hA⟩ : ∃ A, ts[lo + k]? = some A := ⟨_, List.getElem?_eq_getElem (by omega)⟩
    have hA' : (ts.drop lo)[k]? = some A := by rw [List.getElem?_drop]; exact hA
    have hW : ∃ W, mpo[lo + k]? = some W := by
      have := (fits_length h3).1
      refine ⟨_, List.getElem?_eq_getElem (i := lo + k) ?_⟩
      simp at this; omega
    obtain ⟨W, hW⟩ := hW
    have hW' : (mpo.drop lo)[k]? = some W := by rw [List.getElem?_drop]; exact hW
    rw [take_succ_getElem? hA', take_succ_getElem? hW'] at h3
    rw [take_succ_getElem? hA', linked_append] at h1
    rw [take_succ_getElem? hW', mlinked_append] at h2
    obtain ⟨x', x1, x2, x3⟩ := h1
    obtain ⟨y', y1, y2, y3⟩ := h2
    obtain ⟨f1, f2, f3⟩ := fits_unsnoc h3
    have hadd : ∃ E', addLayerL E A W A = .ok E' ∧ E'.u = A.l ∧ E'.w = A.l ∧ E'.m = W.l := by
      unfold addLayerL
      have x3 : A.r = E.u := x3
      have y3 : W.r = E.m := y3
      rw [if_pos ⟨x3.symm, y3.symm, f2, by rw [← hE]; exact x3.symm, f3⟩]
      exact ⟨_, rfl, rfl, rfl, rfl⟩
    obtain ⟨E', e1, e2, e3, e4⟩ := hadd
    simp only [rbLoop, getE_some hA, getE_some hW, e1]
    exact ih E' x y (by rw [e2, e3]) (by rw [e2, x2]; exact x1) (by rw [e4, y2]; exact y1) f1 (by omega)

theorem cutHalf_total (ts : List (Ten ℂ)) : ∀ (k n : ℕ) (acc : List (Ten ℂ) × ℕ), n + k ≤ ts.length →
    ∃ res, cutHalf ts k n acc = .ok res := by
  intro k
  induction k with
  | zero => intro n acc _; exact ⟨acc, rfl⟩
  | succ k ih =>
    intro n ⟨new, D⟩ hl
    simp only [cutHalf, getE_some (List.getElem?_eq_getElem (show n < ts.length by omega))]
    exact ih _ _ (by omega)

theorem copyBack_total (new : List (Ten ℂ)) : ∀ (k n : ℕ) (ts : List (Ten ℂ)), n + k ≤ ts.length → n + k ≤ new.length →
    ∃ res, copyBack new k n ts = .ok res := by
  intro k
  induction k with
  | zero => intro n ts _ _; exact ⟨ts, rfl⟩
  | succ k ih =>
    intro n ts h1 h2
    have hset : ∀ t, setE ts n t = .ok (ts.set n t) := fun t => by unfold setE; rw [if_pos (by omega)]
    simp only [copyBack, getE_some (List.getElem?_eq_getElem (show n < new.length by omega)), hset]
    exact ih _ _ (by simp; omega) (by omega)

theorem total_aux {O : LinAlg} (hO : O.Spec) {pinv : Mat ℂ → Mat ℂ} (hp : ∀ A, PinvSpec A (pinv A)) {e : Eng}
    {l r h : ℕ} (hs : e.mps.sth < 1e-15) (hf : e.Fit) (hw : e.mps.WF l r) (hlb : e.lb.u = l) (hrb : e.rb.u = r)
    (hcr : e.mps.conn.r = r) (hcl : e.mps.conn.c = l) (hlm : e.lb.m = e.rb.m) (hN : e.mps.N = 2 * h) (hh : 1 ≤ h)
    (hsq : ∀ m1 m2 m3 m4, e.mps.position O e.mps.N = .ok m1 → m1.position O (h : ℤ) = .ok m2 → m2.position O 0 = .ok m3 →
      (glued pinv h m1 m2 m3).position O 0 = .ok m4 → m4.mat.r = m4.mat.c) :
    (∃ x, Idmrg.update O pinv e = .ok x) ∨
      (Idmrg.update O pinv e = .error .nan ∧
        ((∀ s, Cfg e.mps.tensors s → ∀ i < l, ∀ j, e.mps.amp s i j = 0) ∨
          ∃ M' C' X Y p, Exchanged (e.mps.ds.take h) (e.mps.ds.drop h) e.mps.amp e.mps.conn M' C' X Y p ∧
            ∀ s, CfgD (e.mps.ds.rotate h) s → ∀ i < C'.c, ∀ j, M' s i j = 0)) := by
  have hmlen : e.mpo.length = e.mps.N := by
    have := congrArg List.length hf.ins
    simpa [MPS.ds, hw.len] using this
  have h2 : e.mps.N / 2 = h := by omega
  have hs' := effSth_default hs
  unfold Idmrg.update Idmrg.shift
  simp only
  cases p1 : e.mps.position O e.mps.N with
  | error x =>
    obtain ⟨rfl, z⟩ := position_err hO hs' hw le_rfl p1
    exact Or.inr ⟨rfl, Or.inl z⟩
  | ok m1 =>
  have q1 := (position_moved hO hs' hw p1).2.2
  rw [Int.toNat_natCast] at q1
  have hs1 : m1.sth < 1e-15 := by rw [q1.sth]; exact hs
  have l1 := q1.wf.left
  rw [q1.pos, List.take_of_length_le (by rw [q1.wf.len, q1.N])] at l1
  have n1 : m1.tensors.length = 2 * h := by rw [q1.wf.len, q1.N, hN]
  have f1 : Fits m1.tensors e.mpo m1.tensors := fits_of_maps (by rw [hf.ins]; exact q1.ds.symm) (by rw [hf.outs]; exact q1.ds.symm)
  have mz1 : ∀ {m : MPS}, m.ds = e.mps.ds → (∀ s, Cfg e.mps.tensors s → ∀ i < l, ∀ j, m.amp s i j = e.mps.amp s i j) →
      (∀ s, Cfg m.tensors s → ∀ i < l, ∀ j, m.amp s i j = 0) →
      ∀ s, Cfg e.mps.tensors s → ∀ i < l, ∀ j, e.mps.amp s i j = 0 := by
    intro m hds ha hz s hc i hi j
    rw [← ha s hc i hi j]
    refine hz s ?_ i hi j
    rw [cfg_iff_map] at hc ⊢
    rw [show m.tensors.map Ten.d = e.mps.tensors.map Ten.d from hds]; exact hc
  have hfit : ∀ {m : MPS}, m.ds = e.mps.ds → ∀ k, Fits (m.tensors.take k) (e.mpo.take k) (m.tensors.take k) ∧
      Fits (m.tensors.drop k) (e.mpo.drop k) (m.tensors.drop k) := by
    intro m hds k
    refine ⟨fits_of_maps ?_ ?_, fits_of_maps ?_ ?_⟩
    · rw [List.map_take, hf.ins, ← hds, MPS.ds, List.map_take]
    · rw [List.map_take, hf.outs, ← hds, MPS.ds, List.map_take]
    · rw [List.map_drop, hf.ins, ← hds, MPS.ds, List.map_drop]
    · rw [List.map_drop, hf.outs, ← hds, MPS.ds, List.map_drop]
  obtain ⟨y, y1, y2⟩ := mlinked_take hf.mlink h
  obtain ⟨x1, a1, a2⟩ := linked_take l1 h
  obtain ⟨lb, elb⟩ := lbLoop_ok (ts := m1.tensors) (mpo := e.mpo) h 0 e.lb x1 y hf.lb (by rw [hlb]; exact a1) y1
    (hfit q1.ds h).1 (by omega)
  obtain ⟨acc, eacc⟩ := cutHalf_total m1.tensors h h ([], 0) (by omega)
  rw [h2, hN, show 2 * h - h = h by omega]
  simp only [elb, eacc]
  cases p2 : m1.position O (h : ℤ) with
  | error x =>
    obtain ⟨rfl, z⟩ := position_err hO (effSth_default hs1) q1.wf (by rw [q1.N, hN]; omega) p2
    exact Or.inr ⟨rfl, Or.inl (mz1 q1.ds q1.amp z)⟩
  | ok m2 =>
  have q2 := (position_moved hO (effSth_default hs1) q1.wf p2).2.2
  rw [Int.toNat_natCast] at q2
  have hs2 : m2.sth < 1e-15 := by rw [q2.sth]; exact hs1
  have n2 : m2.tensors.length = 2 * h := by rw [q2.wf.len, q2.N, q1.N, hN]
  have ds2 : m2.ds = e.mps.ds := by rw [q2.ds, q1.ds]
  have amp2 : ∀ s, Cfg e.mps.tensors s → ∀ i < l, ∀ j, m2.amp s i j = e.mps.amp s i j := by
    intro s hc i hi j
    rw [← q1.amp s hc i hi j]
    refine q2.amp s ?_ i hi j
    rw [cfg_iff_map] at hc ⊢
    rw [show m1.tensors.map Ten.d = e.mps.tensors.map Ten.d from q1.ds]; exact hc
  have b2 := q2.wf.right
  rw [q2.pos] at b2
  have td : (m2.tensors.drop h).take h = m2.tensors.drop h := List.take_of_length_le (by simp; omega)
  have tm : (e.mpo.drop h).take h = e.mpo.drop h := List.take_of_length_le (by simp; omega)
  obtain ⟨rb, erb⟩ := rbLoop_ok (ts := m2.tensors) (mpo := e.mpo) (lo := h) h e.rb m2.mat.c y hf.rb
    (by rw [hrb, td]; exact b2) (by rw [tm]; exact y2) (by rw [td, tm]; exact (hfit ds2 h).2) (by omega)
  simp only [erb]
  cases p3 : m2.position O 0 with
  | error x =>
    obtain ⟨rfl, z⟩ := position_err hO (b := 0) (effSth_default hs2) q2.wf (by omega) p3
    exact Or.inr ⟨rfl, Or.inl (mz1 ds2 amp2 z)⟩
  | ok m3 =>
  have q3 := (position_moved hO (effSth_default hs2) q2.wf p3).2.2
  rw [Int.toNat_zero] at q3
  have hs3 : m3.sth < 1e-15 := by rw [q3.sth]; exact hs2
  have n3 : m3.tensors.length = 2 * h := by rw [q3.wf.len, q3.N, q2.N, q1.N, hN]
  obtain ⟨⟨new, D'⟩, enew⟩ := cutHalf_total m3.tensors h 0 acc (by omega)
  have c1 := (cutHalf_ok _ _ _ _ _ eacc).1
  have c2 := (cutHalf_ok _ _ _ _ _ enew).1
  have td1 : (m1.tensors.drop h).take h = m1.tensors.drop h := List.take_of_length_le (by simp; omega)
  simp only [List.nil_append, List.drop_zero, td1] at c1 c2
  rw [c1] at c2
  have ln : new.length = 2 * h := by rw [c2]; simp; omega
  obtain ⟨ts, ets⟩ := copyBack_total new (2 * h) 0 m3.tensors (by omega) (by omega)
  have c3 := (copyBack_ok new (2 * h) 0 _ _ (by omega) ets (by simp)).1
  rw [List.take_of_length_le (by omega), c2] at c3
  have hc3 : m3.conn = e.mps.conn := by rw [q3.conn, q2.conn, q1.conn]
  have w1r := q1.wf.right
  rw [q1.pos, List.drop_eq_nil_of_le (by omega)] at w1r
  have w1r : m1.mat.c = r := w1r
  have w3l := q3.wf.left
  rw [q3.pos] at w3l
  simp only [List.take_zero] at w3l
  have w3l : l = m3.mat.r := w3l
  have d1 : npDot m1.mat m3.conn = .ok (m1.mat.dot m3.conn) := by
    unfold npDot; rw [if_pos (by rw [hc3, hcr, w1r])]
  have d2 : npDot (m1.mat.dot m3.conn) m3.mat = .ok ((m1.mat.dot m3.conn).dot m3.mat) := by
    unfold npDot; rw [if_pos (show (m1.mat.dot m3.conn).c = m3.mat.r by
      show m3.conn.c = m3.mat.r; rw [hc3, hcl, w3l])]
  simp only [enew, ets, d1, d2, c3]
  obtain ⟨gwf, hgds, X, Y, p, hX⟩ := glue_spec hO hp hs' hw hcr hcl hN p1 (by rw [h2]; exact p2) p3
  have hsg : (glued pinv h m1 m2 m3).sth < 1e-15 := hs3
  have P := hp m2.mat
  rw [show ({ m3 with
        tensors := m1.tensors.drop h ++ m3.tensors.take h
        pos := h
        mat := (m1.mat.dot m3.conn).dot m3.mat
        conn := pinv m2.mat } : MPS) = glued pinv h m1 m2 m3 from rfl]
  cases p4 : (glued pinv h m1 m2 m3).position O 0 with
  | error x =>
    obtain ⟨rfl, z⟩ := position_err hO (b := 0) (effSth_default hsg) gwf (by omega) p4
    refine Or.inr ⟨rfl, Or.inr ⟨_, _, X, Y, p, hX, fun s hc i hi j => ?_⟩⟩
    refine z s (cfgD_cfg.mp ?_) i (by rw [← P.c]; exact hi) j
    rw [show (glued pinv h m1 m2 m3).tensors.map Ten.d = e.mps.ds.rotate h from hgds]; exact hc
  | ok m4 =>
  left
  have q4 := (position_moved hO (effSth_default hsg) gwf p4).2.2
  rw [Int.toNat_zero] at q4
  have sq4 := hsq m1 m2 m3 m4 p1 p2 p3 p4
  have l4 := wf_link q4.wf sq4
  have ne4 : m4.tensors ≠ [] := by
    intro h0
    have := q4.wf.len
    rw [q4.N, show (glued pinv h m1 m2 m3).N = m3.N from rfl, q3.N, q2.N, q1.N, hN, h0] at this
    simp at this; omega
  have f4 : Fits m4.tensors (e.mpo.rotate h) m4.tensors := by
    have hd : m4.tensors.map Ten.d = e.mps.ds.rotate h := by rw [← hgds]; exact q4.ds
    exact fits_of_maps (by rw [List.map_rotate, hf.ins, hd]) (by rw [List.map_rotate, hf.outs, hd])
  have L1 := lbLoop_isL _ _ _ _ _ _ elb
  have R1 := rbLoop_isR _ _ _ _ _ _ erb
  rw [td, tm] at R1
  simp only [List.drop_zero] at L1
  have hA : m1.tensors.take h = m2.tensors.take h := by
    apply List.ext_getElem?
    intro x
    simp only [List.getElem?_take]
    split_ifs with hx
    · exact (q2.same x (Or.inl ⟨by rw [q1.pos]; omega, hx⟩)).symm
    · rfl
  have w2l := q2.wf.left
  have w2r := q2.wf.right
  rw [q2.pos] at w2l w2r
  have lbu : lb.u = m2.mat.r := by
    have := L1.u
    rw [hA, hlb] at this
    exact linked_rdim_unique this w2l
  have lbw : lb.w = m2.mat.r := by
    have := L1.w
    rw [hA, ← hf.lb, hlb] at this
    exact linked_rdim_unique this w2l
  have rbu : rb.u = m2.mat.c := by
    have := R1.u
    rw [hrb] at this
    exact linked_unique_l this w2r rfl
  have rbw : rb.w = m2.mat.c := by
    have := R1.w
    rw [← hf.rb, hrb] at this
    exact linked_unique_l this w2r rfl
  have lbm : lb.m = y := mlinked_rdim L1.m y1
  have rbm : rb.m = y := mlinked_unique_l R1.m y2 rfl
  have ml4 : MLinked y (e.mpo.rotate h) y := by
    rw [List.rotate_eq_drop_append_take (by omega), mlinked_append]
    exact ⟨e.rb.m, y2, by rw [← hlm]; exact y1⟩
  obtain ⟨Ls, hLs⟩ := C30_getL_succeeds (lb := lb) ne4 (by rw [lbu]; exact l4) (by rw [lbw]; exact l4)
    (by rw [lbm]; exact ml4) f4
  obtain ⟨Rs, hRs⟩ := C30_getR_succeeds (rb := rb) ne4 (by rw [rbu]; exact l4) (by rw [rbw]; exact l4)
    (by rw [rbm]; exact ml4) f4
  simp only [C47_rotates e.mpo h (by omega), hLs, hRs]
  exact ⟨_, rfl⟩


/-- The general form: only the shape of the centre matrix at the end matters. -/
theorem total_row {O : LinAlg} (hO : O.Spec) {pinv : Mat ℂ → Mat ℂ} (hp : ∀ A, PinvSpec A (pinv A)) {e : Eng}
    {l r h : ℕ} (hs : e.mps.sth < 1e-15) (hf : e.Fit) (hw : e.mps.WF l r) (hlb : e.lb.u = l) (hrb : e.rb.u = r)
    (hcr : e.mps.conn.r = r) (hcl : e.mps.conn.c = l) (hlm : e.lb.m = e.rb.m) (hN : e.mps.N = 2 * h) (hh : 1 ≤ h)
    (hsq : ∀ m1 m2 m3 m4, e.mps.position O e.mps.N = .ok m1 → m1.position O (h : ℤ) = .ok m2 → m2.position O 0 = .ok m3 →
      (glued pinv h m1 m2 m3).position O 0 = .ok m4 → m4.mat.r = m4.mat.c) :
    (∃ x, Idmrg.update O pinv e = .ok x) ∨
      (Idmrg.update O pinv e = .error .nan ∧ ∀ s s', CfgD e.mps.ds s → CfgD e.mps.ds s' → ∀ i < l, ∀ j < r,
        cellRow e.mps.amp e.mps.conn [s] (e.mps.amp s') i j = 0) := by
  rcases total_aux hO hp hs hf hw hlb hrb hcr hcl hlm hN hh hsq with hx | ⟨h1, h2⟩
  · exact Or.inl hx
  refine Or.inr ⟨h1, fun s s' hc hc' i hi j hj => ?_⟩
  simp only [cellRow]
  rcases h2 with h2 | ⟨M', C', X, Y, p, hE, hz⟩
  · have : ∀ k, e.mps.amp s i k = 0 := fun k => h2 s (cfgD_cfg.mp hc) i hi k
    simp [mmul, this]
  · have dslen : e.mps.ds.length = 2 * h := by simp [MPS.ds, hw.len, hN]
    have cut : ∀ {s}, CfgD e.mps.ds s → CfgD (e.mps.ds.take h) (s.take h) ∧ CfgD (e.mps.ds.drop h) (s.drop h) := by
      intro s hs
      exact ⟨List.forall₂_take h hs, List.forall₂_drop h hs⟩
    obtain ⟨k1, k2⟩ := cut hc
    obtain ⟨k3, k4⟩ := cut hc'
    have e1 : mmul e.mps.conn.r (e.mps.amp s) (mmul e.mps.conn.c e.mps.conn.v (e.mps.amp s')) i j
        = mmul e.mps.conn.r (mmul C'.r (Y (s.take h)) (mmul C'.c C'.v (X (s.drop h))))
            (mmul e.mps.conn.c e.mps.conn.v (mmul C'.r (Y (s'.take h)) (mmul C'.c C'.v (X (s'.drop h))))) i j := by
      refine mmul_congr (fun k hk => ?_) fun k _ => mmul_congr (fun _ _ => rfl) fun k' hk' => ?_
      · rw [← hE.old _ _ k1 k2 i (by rw [hcl]; exact hi) k hk, List.take_append_drop]
      · rw [← hE.old _ _ k3 k4 k' hk' j (by rw [hcr]; exact hj), List.take_append_drop]
    rw [e1]
    have e2 : mmul e.mps.conn.r (mmul C'.r (Y (s.take h)) (mmul C'.c C'.v (X (s.drop h))))
            (mmul e.mps.conn.c e.mps.conn.v (mmul C'.r (Y (s'.take h)) (mmul C'.c C'.v (X (s'.drop h)))))
        = mmul C'.r (Y (s.take h)) (mmul C'.c C'.v (mmul C'.r
            (mmul e.mps.conn.r (X (s.drop h)) (mmul e.mps.conn.c e.mps.conn.v (Y (s'.take h))))
            (mmul C'.c C'.v (X (s'.drop h))))) := by
      simp only [mmul_assoc]
    rw [e2]
    have e3 : ∀ i < C'.c, ∀ j < C'.r,
        mmul e.mps.conn.r (X (s.drop h)) (mmul e.mps.conn.c e.mps.conn.v (Y (s'.take h))) i j = 0 := by
      intro i hi j hj
      have a := hE.new _ _ k3 k2 i hi j hj
      rw [hz _ (by
        rw [List.rotate_eq_drop_append_take (by omega)]
        exact List.rel_append k2 k3) i hi j] at a
      rcases mul_eq_zero.mp a.symm with h0 | h0
      · exact absurd h0 (by exact_mod_cast hE.pos.ne')
      · exact h0
    have e4 : ∀ k < C'.r, mmul C'.c C'.v (mmul C'.r
            (mmul e.mps.conn.r (X (s.drop h)) (mmul e.mps.conn.c e.mps.conn.v (Y (s'.take h))))
            (mmul C'.c C'.v (X (s'.drop h)))) k j = 0 := by
      intro k _
      refine sum_eq_zero fun x hx => ?_
      rw [show mmul C'.r _ _ x j = 0 from sum_eq_zero fun y hy => by
        rw [e3 x (mem_range.mp hx) y (mem_range.mp hy), zero_mul], mul_zero]
    exact sum_eq_zero fun k hk => by rw [e4 k (mem_range.mp hk), mul_zero]

/-- **C58 (totality on even cells).**  On a consistent engine -- matching MPO, boundaries and connector, square centre
matrix and admissible bond dimensions -- the update of an even unit cell succeeds, unless the state of the infinite
chain vanishes: it can only end with NaN, and then already two neighbouring cells have amplitude zero in every
configuration. -/
theorem C58_total {O : LinAlg} (hO : O.Spec) {pinv : Mat ℂ → Mat ℂ} (hp : ∀ A, PinvSpec A (pinv A)) {e : Eng}
    {D h : ℕ} (hs : e.mps.sth < 1e-15) (hf : e.Fit) (hw : e.mps.WF D D) (hlb : e.lb.u = D) (hrb : e.rb.u = D)
    (hcr : e.mps.conn.r = D) (hcl : e.mps.conn.c = D) (hlm : e.lb.m = e.rb.m) (hsq : e.mps.mat.r = e.mps.mat.c)
    (had : ∀ t ∈ e.mps.tensors, t.Adm) (hN : e.mps.N = 2 * h) (hh : 1 ≤ h) :
    (∃ x, Idmrg.update O pinv e = .ok x) ∨
      (Idmrg.update O pinv e = .error .nan ∧ ∀ s s', CfgD e.mps.ds s → CfgD e.mps.ds s' → ∀ i < D, ∀ j < D,
        cellRow e.mps.amp e.mps.conn [s] (e.mps.amp s') i j = 0) := by
  refine total_row hO hp hs hf hw hlb hrb hcr hcl hlm hN hh fun m1 m2 m3 m4 p1 p2 p3 p4 => ?_
  have hs' := effSth_default hs
  have q1 := (position_moved hO hs' hw p1).2.2
  rw [Int.toNat_natCast] at q1
  obtain ⟨sh1, sq1⟩ := position_shape hO hs p1 had hsq
  have ad1 := adm_shape sh1 had
  have hs1 : m1.sth < 1e-15 := by rw [q1.sth]; exact hs
  have q2 := (position_moved hO (effSth_default hs1) q1.wf p2).2.2
  rw [Int.toNat_natCast] at q2
  obtain ⟨sh2, sq2⟩ := position_shape hO hs1 p2 ad1 sq1
  have ad2 := adm_shape sh2 ad1
  have hs2 : m2.sth < 1e-15 := by rw [q2.sth]; exact hs1
  have q3 := (position_moved hO (effSth_default hs2) q2.wf p3).2.2
  rw [Int.toNat_zero] at q3
  obtain ⟨sh3, sq3⟩ := position_shape hO hs2 p3 ad2 sq2
  have ad3 := adm_shape sh3 ad2
  have hs3 : m3.sth < 1e-15 := by rw [q3.sth]; exact hs2
  have n1 : m1.tensors.length = 2 * h := by rw [q1.wf.len, q1.N, hN]
  have w1r := q1.wf.right
  rw [q1.pos, List.drop_eq_nil_of_le (by omega)] at w1r
  have w1r : m1.mat.c = D := w1r
  have w3l := q3.wf.left
  rw [q3.pos] at w3l
  simp only [List.take_zero] at w3l
  have w3l : D = m3.mat.r := w3l
  have hsg : (glued pinv h m1 m2 m3).sth < 1e-15 := hs3
  have adg : ∀ t ∈ (glued pinv h m1 m2 m3).tensors, t.Adm := by
    intro t ht
    rcases List.mem_append.mp ht with ht | ht
    · exact ad1 t (List.mem_of_mem_drop ht)
    · exact ad3 t (List.mem_of_mem_take ht)
  have sqg : (glued pinv h m1 m2 m3).mat.r = (glued pinv h m1 m2 m3).mat.c := by
    show m1.mat.r = m3.mat.c
    rw [sq1, w1r, w3l, sq3]
  exact (position_shape hO hsg p4 adg sqg).2

/-! ## The pseudo-inverse exists -/

/-- Every matrix has a pseudo-inverse in the sense of the contract. -/
theorem exists_pinv : ∃ pinv : Mat ℂ → Mat ℂ, ∀ A, PinvSpec A (pinv A) := by
  suffices h : ∀ A : Mat ℂ, ∃ P, PinvSpec A P from ⟨fun A => (h A).choose, fun A => (h A).choose_spec⟩
  intro A
  let M : Matrix (Fin A.r) (Fin A.c) ℂ := fun i j => A.v i j
  let f := Matrix.toLin' M
  obtain ⟨sec, hsec⟩ := LinearMap.exists_rightInverse_of_surjective f.rangeRestrict f.range_rangeRestrict
  obtain ⟨g, hg⟩ := LinearMap.exists_extend sec
  have key : f ∘ₗ g ∘ₗ f = f := by
    ext1 x
    have h1 : g (f (Pi.single x 1)) = sec ⟨f (Pi.single x 1), LinearMap.mem_range_self f _⟩ := by
      have := congrArg (fun k => k ⟨f (Pi.single x 1), LinearMap.mem_range_self f _⟩) hg
      simpa using this
    have h2 := congrArg (fun k => (k ⟨f (Pi.single x 1), LinearMap.mem_range_self f _⟩ : LinearMap.range f).1) hsec
    ext1
    simp only [LinearMap.comp_apply, LinearMap.single_apply]
    rw [h1]
    exact h2
  let G := LinearMap.toMatrix' g
  have kM : M * (G * M) = M := by
    have := congrArg LinearMap.toMatrix' key
    rwa [LinearMap.toMatrix'_comp, LinearMap.toMatrix'_comp, LinearMap.toMatrix'_toLin'] at this
  refine ⟨⟨A.c, A.r, fun i j => if h : i < A.c ∧ j < A.r then G ⟨i, h.1⟩ ⟨j, h.2⟩ else 0⟩, rfl, rfl, ?_⟩
  intro i hi j hj
  have := congrFun (congrFun kM ⟨i, hi⟩) ⟨j, hj⟩
  simp only [Matrix.mul_apply] at this
  rw [show A.v i j = M ⟨i, hi⟩ ⟨j, hj⟩ from rfl, ← this, Finset.sum_range]
  refine sum_congr rfl fun k _ => ?_
  rw [Finset.sum_range, mul_sum]
  refine sum_congr rfl fun k' _ => ?_
  simp [M, mul_assoc]


/-! ## Concrete cases -/

/-- Two sites of the infinite GHZ state `…000… + …111…`, bond dimension two, not normalised. -/
def gMps : MPS :=
  { N := 2, Dmax := 2, obc := false, sth := 1e-16, rth := 1e-14
    tensors := [⟨2, 2, 2, fun i j s => delta ℂ i j * delta ℂ i s⟩, ⟨2, 2, 2, fun i j s => delta ℂ i j * delta ℂ i s⟩]
    mat := ⟨2, 2, delta ℂ⟩, conn := ⟨2, 2, delta ℂ⟩, pos := 1, Z := 1 }

/-- Identity MPO tensor of a qubit. -/
def gW : Mpo ℂ := ⟨1, 1, 2, 2, fun _ _ s t => delta ℂ s t⟩

/-- The engine of this cell with identity environments. -/
def gEng : Eng := ⟨gMps, [gW, gW], ⟨2, 2, 1, fun i j _ => delta ℂ i j⟩, ⟨2, 2, 1, fun i j _ => delta ℂ i j⟩, [], []⟩

theorem gMps_wf : gMps.WF 2 2 := by
  refine ⟨rfl, by decide, ?_, ?_⟩ <;> simp [gMps, Linked]

/-- The hypotheses of the theorems on even cells are met by the GHZ cell, and its update succeeds, whatever qr, svd and
pinv return within their contracts. -/
theorem gEng_update {O : LinAlg} (hO : O.Spec) {pinv : Mat ℂ → Mat ℂ} (hp : ∀ A, PinvSpec A (pinv A)) :
    ∃ x, Idmrg.update O pinv gEng = .ok x := by
  rcases C58_total (D := 2) (h := 1) hO hp (e := gEng) (by norm_num [gEng, gMps]) ⟨rfl, rfl, by simp [gEng, gW, MLinked],
    rfl, rfl⟩ gMps_wf rfl rfl rfl rfl rfl rfl (by simp [gEng, gMps, Ten.Adm]) rfl le_rfl with h | ⟨-, h⟩
  · exact h
  exfalso
  have hc : CfgD gEng.mps.ds [0, 0] :=
    List.Forall₂.cons (by decide) (List.Forall₂.cons (by decide) List.Forall₂.nil)
  have := h [0, 0] [0, 0] hc hc 0 (by decide) 0 (by decide)
  simp [cellRow, mmul, gEng, gMps, MPS.amp, chain, delta] at this

/-- Its new state is glued from the same halves. -/
example : ∃ (O : LinAlg) (pinv : Mat ℂ → Mat ℂ) (e' : Eng) (D : ℕ) (X Y : List ℕ → ℕ → ℕ → ℂ) (p : ℝ),
    Idmrg.update O pinv gEng = .ok (e', D) ∧
      Exchanged [2] [2] gMps.amp gMps.conn e'.mps.amp e'.mps.conn X Y p := by
  obtain ⟨O, hO⟩ := exists_linAlg
  obtain ⟨pinv, hp⟩ := exists_pinv
  obtain ⟨⟨e', D⟩, hu⟩ := gEng_update hO hp
  obtain ⟨-, -, -, -, -, X, Y, p, hx⟩ := C58_exchange (h := 1) hO hp (by norm_num [gEng, gMps, MPS.effSth]) gMps_wf rfl rfl
    rfl rfl hu
  exact ⟨O, pinv, e', D, X, Y, p, hu, hx⟩

/-- A three-site cell with bond dimensions `1, 1, 2, 1`, centre at its right end. -/
def oMps : MPS :=
  { N := 3, Dmax := 2, obc := false, sth := 1e-16, rth := 1e-14
    tensors := [⟨1, 1, 2, fun _ _ s => delta ℂ 0 s⟩, ⟨1, 2, 2, fun _ j s => delta ℂ j s⟩, ⟨2, 1, 2, fun i _ s => delta ℂ i s⟩]
    mat := ⟨1, 1, fun _ _ => 1⟩, conn := ⟨1, 1, fun _ _ => 1⟩, pos := 3, Z := 1 }

/-- The cell is well formed, its engine consistent, and the update fails whatever the linear algebra returns. -/
example (O : LinAlg) (pinv : Mat ℂ → Mat ℂ) : oMps.WF 1 1 ∧
    (⟨oMps, [gW, gW, gW], oneEnv, oneEnv, [], []⟩ : Eng).Fit ∧
    ∀ x, Idmrg.update O pinv ⟨oMps, [gW, gW, gW], oneEnv, oneEnv, [], []⟩ ≠ .ok x := by
  refine ⟨⟨rfl, by decide, by simp [oMps, Linked], by simp [oMps, Linked]⟩,
    ⟨rfl, rfl, by simp [gW, MLinked, oneEnv], rfl, rfl⟩, ?_⟩
  exact C58_violated_odd (h := 1) rfl le_rfl rfl rfl (t := ⟨1, 2, 2, fun _ j s => delta ℂ j s⟩) rfl (by simp [oMps])

end

end PyTeN
