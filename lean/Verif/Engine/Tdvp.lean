import Verif.Engine.TebdState
import Verif.Engine.Sim
import Verif.Engine.Init

/-! # TDVP: arguments of the integrator calls and the flow of the state -/

namespace PyTeN
open Finset

noncomputable section

/-- Contract of the site integrators: the result is reshaped to `mps.shape`, lib/mpslib/mpsfunctions.py:1298, 1331,
1354. -/
def EvolveTen.Shape (evT : EvolveTen) : Prop :=
  ∀ sv L W R T t X, evT sv L W R T t = .ok X → X.l = T.l ∧ X.r = T.r ∧ X.d = T.d

/-- Contract of the bond integrators: the result is reshaped to `mat.shape`, lib/mpslib/mpsfunctions.py:1319, 1340,
1366. -/
def EvolveMat.Shape (evM : EvolveMat) : Prop :=
  ∀ sv L R C t X, evM sv L R C t = .ok X → X.r = C.r ∧ X.c = C.c

/-- Spec: a family of amplitudes. -/
abbrev Amp := List ℕ → ℕ → ℕ → ℂ

/-- Spec: two families of amplitudes are positive multiples of each other. -/
def Ray (ds : List ℕ) (l : ℕ) (f g : Amp) : Prop :=
  ∃ c : ℝ, 0 < c ∧ ∀ s, Conf ds s → ∀ i < l, ∀ j, g s i j = (c : ℂ) * f s i j

theorem Ray.refl (ds : List ℕ) (l : ℕ) (f : Amp) : Ray ds l f f := ⟨1, one_pos, by simp⟩

theorem Ray.trans {ds : List ℕ} {l : ℕ} {f g h : Amp} (h1 : Ray ds l f g) (h2 : Ray ds l g h) : Ray ds l f h := by
  obtain ⟨a, ha, h1⟩ := h1
  obtain ⟨b, hb, h2⟩ := h2
  refine ⟨b * a, mul_pos hb ha, fun s hs i hi j => ?_⟩
  rw [h2 s hs i hi j, h1 s hs i hi j]; push_cast; ring

/-- Spec: the arguments of an integrator call belong to the MPS object at that time.  Site call: `L`, `R` are the
contractions of the sites left and right of `n` with the MPO, `W` is the MPO tensor of the site and `T` fits between
the neighbours.  Bond call: `L` contains the sites `0..n`, `R` the sites `n+1..N-1`, and the matrix fits. -/
def TCall.OK (lb rb : Env ℂ) (mpo : List (Mpo ℂ)) : TCall → Prop
  | .ten n m L W R T _ => n < m.N ∧ m.tensors.length = m.N ∧ mpo[n]? = some W ∧
      IsL lb (m.tensors.take n) (mpo.take n) (m.tensors.take n) L ∧
      IsR rb (m.tensors.drop (n + 1)) (mpo.drop (n + 1)) (m.tensors.drop (n + 1)) R ∧
      Linked lb.u (m.tensors.set n T) rb.u ∧ (m.tensors.set n T).map Ten.d = m.ds
  | .mat n m L R C _ => n + 1 < m.N ∧ m.tensors.length = m.N ∧
      IsL lb (m.tensors.take (n + 1)) (mpo.take (n + 1)) (m.tensors.take (n + 1)) L ∧
      IsR rb (m.tensors.drop (n + 1)) (mpo.drop (n + 1)) (m.tensors.drop (n + 1)) R ∧
      Linked lb.u (m.tensors.take (n + 1)) C.r ∧ Linked C.c (m.tensors.drop (n + 1)) rb.u

/-- Spec: the tensors in the environments of a call are orthonormal. -/
def TCall.Orth : TCall → Prop
  | .ten n m _ _ _ _ _ => (∀ x t, m.tensors[x]? = some t → x < n → LeftOrth t) ∧
      ∀ x t, m.tensors[x]? = some t → n < x → RightOrth t
  | .mat n m _ _ _ _ => (∀ x t, m.tensors[x]? = some t → x ≤ n → LeftOrth t) ∧
      ∀ x t, m.tensors[x]? = some t → n < x → RightOrth t

/-- Spec: the MPS object at the time of a call. -/
def TCall.mps : TCall → MPS
  | .ten _ m _ _ _ _ _ => m
  | .mat _ m _ _ _ _ => m

/-- Spec: amplitudes of the chain with site tensor `T` and no centre matrix. -/
def siteAmp (m : MPS) (n : ℕ) (T : Ten ℂ) : Amp := fun s i j => m.Z * chain (m.tensors.set n T) s i j

/-- Spec: amplitudes of the chain with the matrix `C` on the bond between `n` and `n+1`. -/
def bondAmp (m : MPS) (n : ℕ) (C : Mat ℂ) : Amp := fun s i j => m.Z *
  split (m.tensors.take (n + 1)) C (m.tensors.drop (n + 1)) (s.take (n + 1)) (s.drop (n + 1)) i j

/-- Spec: the state a call starts from. -/
def TCall.before : TCall → Amp
  | .ten n m _ _ _ T _ => siteAmp m n T
  | .mat n m _ _ C _ => bondAmp m n C

/-- Spec: the state after a call: the local tensor is replaced by the result of the integrator. -/
def TCall.After (evT : EvolveTen) (evM : EvolveMat) (sv : TSolver) : TCall → Amp → Prop
  | .ten n m L W R T dt, g => ∃ X, evT sv L W R T (sv.time dt) = .ok X ∧ g = siteAmp m n X
  | .mat n m L R C dt, g => ∃ X, evM sv L R C (sv.time dt) = .ok X ∧ g = bondAmp m n X

/-- Spec: the calls, one after the other, take the state `f` to the state `g`; between two calls the state is
changed by a positive factor only. -/
def Flow (ds : List ℕ) (l : ℕ) (evT : EvolveTen) (evM : EvolveMat) (sv : TSolver) : List TCall → Amp → Amp → Prop
  | [], f, g => Ray ds l f g
  | c :: cs, f, g => Ray ds l f c.before ∧ ∃ h, c.After evT evM sv h ∧ Flow ds l evT evM sv cs h g

variable {O : LinAlg} {evT : EvolveTen} {evM : EvolveMat} {sv : TSolver} {flag : Prop}

theorem Flow.ray {ds : List ℕ} {l : ℕ} : ∀ {cs : List TCall} {f f' g : Amp}, Ray ds l f f' → Flow ds l evT evM sv cs f' g →
    Flow ds l evT evM sv cs f g
  | [], _, _, _, h, h' => h.trans h'
  | _ :: _, _, _, _, h, h' => ⟨h.trans h'.1, h'.2⟩

theorem Flow.append {ds : List ℕ} {l : ℕ} : ∀ {cs cs' : List TCall} {f g h : Amp}, Flow ds l evT evM sv cs f g →
    Flow ds l evT evM sv cs' g h → Flow ds l evT evM sv (cs ++ cs') f h
  | [], _, _, _, _, h1, h2 => Flow.ray h1 h2
  | _ :: _, _, _, _, _, ⟨h1, x, h2, h3⟩, h4 => ⟨h1, x, h2, Flow.append h3 h4⟩

theorem map_d_set {ts : List (Ten ℂ)} {n : ℕ} {t a : Ten ℂ} (h : ts[n]? = some t) (hs : a.d = t.d) :
    (ts.set n a).map Ten.d = ts.map Ten.d := by
  obtain ⟨h1, h2⟩ := List.getElem?_eq_some_iff.mp h
  apply List.ext_getElem?
  intro x
  simp only [List.map_set, List.getElem?_set, List.getElem?_map]
  split_ifs with h3 h4
  · subst h3; rw [h, hs]; rfl
  · subst h3; rw [List.length_map] at h4; exact absurd h1 h4
  · rfl

/-- Splitting the tensor of a site to the right. -/
theorem chain_set_cutR {l n : ℕ} {ts : List (Ten ℂ)} {X A : Ten ℂ} {C : Mat ℂ} {z : ℝ} (h : ExactR X A C z)
    (hn : n < ts.length) (hA : Linked l (ts.take n) X.l) {s : List ℕ} (hs : Conf ((ts.set n X).map Ten.d) s) {i : ℕ}
    (hi : i < l) (j : ℕ) :
    chain (ts.set n X) s i j = (z : ℂ) * split ((ts.set n A).take (n + 1)) C ((ts.set n A).drop (n + 1))
      (s.take (n + 1)) (s.drop (n + 1)) i j := by
  have hl : s.length = ts.length := by rw [hs.length, List.length_map, List.length_set]
  have hn' : n < s.length := by omega
  have hx : s[n] < X.d := by
    have h5 := (List.forall₂_iff_get.mp hs).2 n (by simpa using hn) hn'
    simpa using h5
  have h1 := chain_cutR h hA (ts.drop (n + 1)) (s.take n) (by simp; omega) hx (s.drop (n + 1)) hi j
  rw [set_take_drop hn, ← List.take_append_drop n s, List.drop_eq_getElem_cons hn']
  rw [h1]
  congr 1
  rw [set_take_drop hn]
  have e0 : (s.take n).length = n := by simp; omega
  have e1 : (ts.take n).length = n := by simp; omega
  have e2 : ∀ {α : Type} (x y : List α) (a : α), x.length = n → (x ++ a :: y).take (n + 1) = x ++ [a] := by
    intro α x y a hx; rw [List.take_append, hx, List.take_of_length_le (by omega)]; simp
  have e3 : ∀ {α : Type} (x y : List α) (a : α), x.length = n → (x ++ a :: y).drop (n + 1) = y := by
    intro α x y a hx; rw [List.drop_append, hx, List.drop_of_length_le (by omega)]; simp
  rw [e2 _ _ _ e1, e3 _ _ _ e1, e2 _ _ _ e0, e3 _ _ _ e0]

/-- Splitting the tensor of a site to the left. -/
theorem chain_set_cutL {l n : ℕ} {ts : List (Ten ℂ)} {X A : Ten ℂ} {C : Mat ℂ} {z : ℝ} (h : ExactL X A C z)
    (hn : n < ts.length) (hA : Linked l (ts.take n) X.l) {s : List ℕ} (hs : Conf ((ts.set n X).map Ten.d) s) {i : ℕ}
    (hi : i < l) (j : ℕ) :
    chain (ts.set n X) s i j = (z : ℂ) * split ((ts.set n A).take n) C ((ts.set n A).drop n)
      (s.take n) (s.drop n) i j := by
  have hl : s.length = ts.length := by rw [hs.length, List.length_map, List.length_set]
  have hn' : n < s.length := by omega
  have hx : s[n] < X.d := by
    have h5 := (List.forall₂_iff_get.mp hs).2 n (by simpa using hn) hn'
    simpa using h5
  have h1 := chain_cutL h hA (ts.drop (n + 1)) (s.take n) (by simp; omega) hx (s.drop (n + 1)) hi j
  rw [← List.drop_eq_getElem_cons hn', List.take_append_drop] at h1
  rw [set_take_drop hn, h1]
  congr 1
  rw [set_take_drop hn]
  have e1 : (ts.take n).length = n := by simp; omega
  have e2 : ∀ {α : Type} (x y : List α) (a : α), x.length = n → (x ++ a :: y).take n = x := by
    intro α x y a hx; rw [List.take_append, hx, List.take_of_length_le (by omega)]; simp
  have e3 : ∀ {α : Type} (x y : List α) (a : α), x.length = n → (x ++ a :: y).drop n = a :: y := by
    intro α x y a hx; rw [List.drop_append, hx, List.drop_of_length_le (by omega)]; simp
  rw [e2 _ _ _ e1, e3 _ _ _ e1]

theorem unit_ok {X Y : Mat ℂ} (h : X.unit = .ok Y) : 0 < normF X ∧ Y = X.divR (normF X) := by
  unfold Mat.unit at h
  split_ifs at h with h1
  simp only [Except.ok.injEq] at h
  exact ⟨lt_of_le_of_ne (Real.sqrt_nonneg _) (Ne.symm h1), h.symm⟩

theorem split_divR (A B : List (Ten ℂ)) (X : Mat ℂ) (z : ℝ) (sA sB : List ℕ) (i j : ℕ) :
    split A (X.divR z) B sA sB i j = ((z⁻¹ : ℝ) : ℂ) * split A X B sA sB i j := by
  unfold split Mat.divR
  rw [mul_sum]
  refine sum_congr rfl fun k _ => ?_
  rw [mul_sum]
  refine sum_congr rfl fun k' _ => ?_
  push_cast
  ring

/-- A site call. -/
theorem evolveTen_spec (hev : evT.Shape) {clear : Bool} {e e' : Eng} {n a b : ℕ} {dt : ℂ} {X : Ten ℂ} {c : TCall}
    (hw : e.mps.WF e.lb.u e.rb.u) (hv : e.Val a b) (ha : n ≤ a) (hb : b ≤ n + 1) (hn : n < e.mps.N)
    (h : e.evolveTen evT sv clear n dt = .ok (e', X, c)) :
    c.OK e.lb e.rb e.mpo ∧ (∃ L W R T, c = .ten n e.mps L W R T dt ∧ X.l = T.l ∧ X.r = T.r ∧ X.d = T.d) ∧
    (∃ C, e' = { e with mps := { e.mps with mat := C } }) ∧
    Ray e.mps.ds e.lb.u e.mps.amp c.before ∧ c.After evT evM sv (siteAmp e.mps n X) ∧
    Linked e.lb.u (e.mps.tensors.set n X) e.rb.u ∧ (e.mps.tensors.set n X).map Ten.d = e.mps.ds := by
  unfold Eng.evolveTen at h
  split at h
  · cases h
  rename_i L hL
  split at h
  · cases h
  rename_i W hW
  split at h
  · cases h
  rename_i R hR
  split at h
  · cases h
  rename_i T m hT
  split at h
  · cases h
  rename_i X' hX
  simp only [Except.ok.injEq, Prod.mk.injEq] at h
  obtain ⟨rfl, rfl, rfl⟩ := h
  obtain ⟨m', hT', hm⟩ : ∃ m', e.mps.tensor n true = .ok (T, m') ∧ ∃ C, m = { e.mps with mat := C } := by
    cases clear with
    | true =>
      obtain ⟨-, ⟨D, hD⟩, -⟩ := tensor_clear hw hT
      exact ⟨m, hT, _, hD⟩
    | false =>
      unfold MPS.tensor at hT ⊢
      simp only [Bool.false_eq_true, if_false, if_true] at hT ⊢
      split_ifs at hT ⊢ with h1 h2
      · split at hT
        · cases hT
        split at hT
        · cases hT
        rename_i T' hT'
        simp only [Except.ok.injEq, Prod.mk.injEq] at hT
        obtain ⟨rfl, rfl⟩ := hT
        exact ⟨_, rfl, _, rfl⟩
      · split at hT
        · cases hT
        split at hT
        · cases hT
        rename_i T' hT'
        simp only [Except.ok.injEq, Prod.mk.injEq] at hT
        obtain ⟨rfl, rfl⟩ := hT
        exact ⟨_, rfl, _, rfl⟩
  obtain ⟨t1, -, ⟨t, t2, t3⟩, t4, t5⟩ := tensor_clear hw hT'
  obtain ⟨x1, x2, x3⟩ := hev _ _ _ _ _ _ _ hX
  have hlt : n < e.mps.tensors.length := (List.getElem?_eq_some_iff.mp t2).1
  have hR' := hv.right (n + 1) hb (by omega) R (by rw [← getE_ok hR]; congr 1; omega)
  refine ⟨⟨hn, hw.len, getE_ok hW, hv.left n ha L (getE_ok hL), hR', t4, map_d_set t2 t3⟩,
    ⟨L, W, R, T, rfl, x1, x2, x3⟩, ?_, ?_, ⟨X', hX, rfl⟩, ?_, map_d_set t2 (x3.trans t3)⟩
  · obtain ⟨C, rfl⟩ := hm
    exact ⟨C, rfl⟩
  · refine ⟨1, one_pos, fun s hs i hi j => ?_⟩
    rw [Complex.ofReal_one, one_mul]
    exact (t5 s (by rw [hs.length, MPS.ds, List.length_map, hw.len]) i hi j).symm
  · rw [set_take_drop hlt, linked_append] at t4 ⊢
    obtain ⟨p, p1, p2, p3⟩ := t4
    exact ⟨p, p1, x1.trans p2, x2 ▸ p3⟩

/-- A bond call followed by the normalisation. -/
theorem evolveMat_spec (hev : evM.Shape) {e e' : Eng} {n a b : ℕ} {C : Mat ℂ} {dt : ℂ} {c : TCall}
    (hlen : e.mps.tensors.length = e.mps.N) (hC1 : Linked e.lb.u (e.mps.tensors.take (n + 1)) C.r)
    (hC2 : Linked C.c (e.mps.tensors.drop (n + 1)) e.rb.u)
    (hv : e.Val a b) (ha : n + 1 ≤ a) (hb : b ≤ n + 1) (hn : n + 1 < e.mps.N) (hp : e.mps.pos = n + 1)
    (h : e.evolveMat evM sv n C dt = .ok (e', c)) :
    c.OK e.lb e.rb e.mpo ∧ (∃ L R, c = .mat n e.mps L R C (-dt)) ∧ c.before = bondAmp e.mps n C ∧
    (∃ Y, e' = { e with mps := { e.mps with mat := Y } } ∧ normF Y = 1) ∧ e'.mps.WF e.lb.u e.rb.u ∧
    ∃ g, c.After evT evM sv g ∧ Ray e.mps.ds e.lb.u g e'.mps.amp := by
  unfold Eng.evolveMat at h
  split at h
  · cases h
  rename_i L hL
  split at h
  · cases h
  rename_i R hR
  split at h
  · cases h
  rename_i X hX
  split at h
  · cases h
  rename_i Y hY
  simp only [Except.ok.injEq, Prod.mk.injEq] at h
  obtain ⟨rfl, rfl⟩ := h
  obtain ⟨x1, x2⟩ := hev _ _ _ _ _ _ hX
  obtain ⟨y1, rfl⟩ := unit_ok hY
  have hR' := hv.right (n + 1) hb (by omega) R (by rw [← getE_ok hR]; congr 1; omega)
  refine ⟨⟨hn, hlen, hv.left (n + 1) ha L (getE_ok hL), hR', hC1, hC2⟩, ⟨L, R, rfl⟩, rfl,
    ⟨_, rfl, normF_divR y1.ne'⟩, ⟨hlen, by simp only [hp]; omega, ?_, ?_⟩, _, ⟨X, hX, rfl⟩, ?_⟩
  · simp only [hp]; rw [show (X.divR (normF X)).r = C.r from x1]; exact hC1
  · simp only [hp]; rw [show (X.divR (normF X)).c = C.c from x2]; exact hC2
  · refine ⟨(normF X)⁻¹, inv_pos.mpr y1, fun s hs i hi j => ?_⟩
    rw [amp_eq_split, bondAmp]
    simp only [hp]
    rw [split_divR]
    ring

/-- Invariant of the sweeps. -/
structure Eng.TI (e : Eng) (flag : Prop) (p a b : ℕ) : Prop where
  wf : e.mps.WF e.lb.u e.rb.u
  pos : e.mps.pos = p
  sth : e.mps.sth < 1e-15
  val : e.Val a b
  orth : flag → e.Orth p p

/-- Attributes that a TDVP sweep does not change. -/
structure Eng.TSame (e e' : Eng) : Prop where
  same : e.Same e'
  ds : e'.mps.ds = e.mps.ds
  Z : ∃ z : ℝ, 0 < z ∧ e'.mps.Z = e.mps.Z * z

theorem Eng.TSame.refl (e : Eng) : e.TSame e := ⟨.refl e, rfl, 1, one_pos, by simp⟩

theorem Eng.TSame.trans {e e1 e2 : Eng} (h : e.TSame e1) (h' : e1.TSame e2) : e.TSame e2 :=
  ⟨h.same.trans h'.same, h'.ds.trans h.ds, by
    obtain ⟨a, ha, h1⟩ := h.Z
    obtain ⟨b, hb, h2⟩ := h'.Z
    exact ⟨a * b, mul_pos ha hb, by rw [h2, h1]; push_cast; ring⟩⟩

/-- Spec of a recorded call relative to an engine. -/
def TCall.Good (e : Eng) (flag : Prop) (c : TCall) : Prop :=
  c.OK e.lb e.rb e.mpo ∧ (flag → c.Orth) ∧ c.mps.ds = e.mps.ds

theorem TCall.Good.same {e e' : Eng} {c : TCall} (hs : e.TSame e') (h : c.Good e' flag) : c.Good e flag := by
  obtain ⟨h1, h2, h3⟩ := h
  rw [hs.same.lb, hs.same.rb, hs.same.mpo] at h1
  exact ⟨h1, h2, h3.trans hs.ds⟩

theorem conf_cfg {m : MPS} {s : List ℕ} (h : Conf m.ds s) : Cfg m.tensors s := cfg_iff_map.mpr h

theorem setItem_ok {m m' : MPS} {n : ℕ} {t : Ten ℂ} (h : m.setItem n t = .ok m') :
    n < m.tensors.length ∧ m' = { m with tensors := m.tensors.set n t } := by
  unfold MPS.setItem pyIdx at h
  split_ifs at h with h1 h2
  · simp only [Except.ok.injEq, Int.toNat_natCast] at h
    exact ⟨by omega, h.symm⟩
  · omega

/-- Moving the centre inside the caches: what remains valid. -/
theorem val_moved {e : Eng} {m' : MPS} {l r p a b a' b' : ℕ} (hv : e.Val a b) (M : Moved e.mps m' l r p)
    (h1 : a' ≤ a) (h2 : b ≤ b') (h3 : a' ≤ p ∧ a' ≤ e.mps.pos ∨ p = e.mps.pos)
    (h4 : p ≤ b' ∧ e.mps.pos ≤ b' ∨ p = e.mps.pos) : ({ e with mps := m' } : Eng).Val a' b' := by
  have hs1 : ∀ x < a', m'.tensors[x]? = e.mps.tensors[x]? := fun x hx => M.same x (by omega)
  have hs2 : ∀ x, b' ≤ x → m'.tensors[x]? = e.mps.tensors[x]? := fun x hx => M.same x (by omega)
  refine ⟨by simp only [M.N]; exact hv.lenL, by simp only [M.N]; exact hv.lenR, by simp only [M.N]; exact hv.lenW,
    fun k hk E hE => ?_, fun k hk hkN E hE => ?_⟩
  · simp only
    rw [take_congr_getElem? (fun x hx => hs1 x (by omega))]
    exact hv.left k (by omega) E hE
  · simp only [M.N] at hE hkN ⊢
    rw [drop_congr_getElem? (fun x hx => hs2 x (by omega))]
    exact hv.right k (by omega) hkN E hE

theorem orth_moved {e : Eng} {m' : MPS} {l r p : ℕ} (ho : e.Orth e.mps.pos e.mps.pos) (M : Moved e.mps m' l r p) :
    ({ e with mps := m' } : Eng).Orth p p := by
  refine ⟨fun x t hx hl => ?_, fun x t hx hl => ?_⟩
  · by_cases h : e.mps.pos ≤ x
    · exact M.left x t hx h hl
    · simp only at hx
      rw [M.same x (by omega)] at hx
      exact ho.left x t hx (by omega)
  · by_cases h : x < e.mps.pos
    · exact M.right x t hx hl h
    · simp only at hx
      rw [M.same x (by omega)] at hx
      exact ho.right x t hx (by omega)

theorem ray_moved {m m' : MPS} {l r p : ℕ} (M : Moved m m' l r p) : Ray m.ds l m.amp m'.amp :=
  ⟨1, one_pos, fun s hs i hi j => by rw [Complex.ofReal_one, one_mul]; exact M.amp s (conf_cfg hs) i hi j⟩

/-- One iteration of the right-moving loop. -/
theorem tdvpR_spec (hO : O.Spec) (hT : evT.Shape) (hM : evM.Shape) {e e' : Eng} {n a b : ℕ} {dt : ℂ} {cs : List TCall}
    (hi : e.TI flag n a b) (ha : n ≤ a) (hb : b ≤ n + 1) (hn : n < e.mps.N)
    (h : e.tdvpR O evT evM sv dt n = .ok (e', cs)) :
    e'.TI flag (n + 1) (n + 1) (n + 1) ∧ normF e'.mps.mat = 1 ∧ e.TSame e' ∧ (∀ c ∈ cs, c.Good e flag) ∧
    Flow e.mps.ds e.lb.u evT evM sv cs e.mps.amp e'.mps.amp ∧
    (∃ m L W R T, cs.head? = some (.ten n m L W R T (if n = e.mps.N - 1 then dt else dt / 2))) ∧
    (if n < e.mps.N - 1 then ∃ m L R C, cs.tail = [.mat n m L R C (-(dt / 2))] else cs.tail = []) := by
  unfold Eng.tdvpR at h
  simp only at h
  split at h
  · cases h
  rename_i m0 hm0
  obtain ⟨-, -, M⟩ := position_moved hO (effSth_default hi.sth) hi.wf hm0
  have hZ := position_Z hO (effSth_default hi.sth) hm0
  rw [show ((n : ℤ) + 1).toNat = n + 1 by omega] at M
  split at h
  · cases h
  rename_i e1 X c hev
  have hpos := hi.pos
  have hv0 : ({ e with mps := m0 } : Eng).Val n (n + 1) :=
    val_moved hi.val M ha hb (Or.inl ⟨by omega, by omega⟩) (Or.inl ⟨le_rfl, by omega⟩)
  obtain ⟨q1, ⟨L0, W0, R0, T0, rfl, x1, x2, x3⟩, ⟨C1, rfl⟩, q2, q3, q4, q5⟩ :=
    evolveTen_spec (evM := evM) (a := n) (b := n + 1) hT M.wf hv0 le_rfl le_rfl (by simp only [M.N]; exact hn) hev
  simp only at q1 q2 q3 q4 q5 h
  split at h
  · cases h
  rename_i A C z hp
  have X1 := prepareTensorR_spec hO hp
  split at h
  · cases h
  rename_i m1 hm1
  obtain ⟨hlt, rfl⟩ := setItem_ok hm1
  simp only at hlt h
  split at h
  · cases h
  rename_i L hL
  split at h
  · cases h
  rename_i W hW
  split at h
  · cases h
  rename_i L' hL'
  split at h
  · cases h
  rename_i Ls hLs
  obtain ⟨hlL, rfl⟩ := setE_ok hLs
  have hget : (m0.tensors.set n A)[n]? = some A := by rw [List.getElem?_set_self hlt]
  have q4' := q4
  rw [set_take_drop hlt, linked_append] at q4'
  obtain ⟨p, p1, p2, p3⟩ := q4'
  have hA1 : Linked e.lb.u ((m0.tensors.set n A).take (n + 1)) C.r := by
    rw [take_succ_getElem? hget, List.take_set_of_le le_rfl, linked_append]
    exact ⟨p, p1, X1.l.trans p2, X1.r⟩
  have hA2 : Linked C.c ((m0.tensors.set n A).drop (n + 1)) e.rb.u := by
    rw [List.drop_set_of_lt (by omega), X1.c]; exact p3
  have hds : (m0.tensors.set n A).map Ten.d = m0.ds := by
    rw [← q5]
    obtain ⟨t, ht⟩ := getElem?_of_lt hlt
    have e1 : X.d = t.d := by
      have h5 := congrArg (fun l => l[n]?) q5
      simp only [MPS.ds, List.getElem?_map, List.getElem?_set_self hlt, ht, Option.map_some, Option.some.injEq] at h5
      exact h5
    rw [map_d_set ht (X1.d.trans e1), map_d_set ht e1]
  have i2 := isL_snoc (hv0.left n le_rfl L (getE_ok hL)) hL'
  -- the engine after the site update, for any centre matrix
  have key : ∀ D : Mat ℂ, ({ e with mps := { m0 with mat := D, tensors := m0.tensors.set n A }, L := e.L.set (n + 1) L' } : Eng).Val
      (n + 1) (n + 1) := by
    intro D
    refine ⟨by simp only [List.length_set]; exact hv0.lenL, hv0.lenR, hv0.lenW, fun k hk E hE => ?_, fun k hk hkN E hE => ?_⟩
    · simp only at hE ⊢
      rw [List.getElem?_set] at hE
      split_ifs at hE with h3
      · simp only [Option.some.injEq] at hE; subst hE; subst h3
        rw [take_succ_getElem? hget, List.take_set_of_le le_rfl, take_succ_getElem? (getE_ok hW)]
        exact i2
      · rw [List.take_set_of_le (by omega)]
        exact hv0.left k (by omega) E hE
    · simp only at hE hkN ⊢
      rw [List.drop_set_of_lt (by omega)]
      exact hv0.right k hk hkN E hE
  have ho0 : flag → ({ e with mps := m0 } : Eng).Orth (n + 1) (n + 1) := fun hf => orth_moved (hpos ▸ hi.orth hf) M
  have korth : flag → (∀ x t, (m0.tensors.set n A)[x]? = some t → x < n + 1 → LeftOrth t) ∧
      ∀ x t, (m0.tensors.set n A)[x]? = some t → n + 1 ≤ x → RightOrth t := by
    intro hf
    refine ⟨fun x t hx hl => ?_, fun x t hx hl => ?_⟩
    · rw [List.getElem?_set] at hx
      split_ifs at hx with h3
      · simp only [Option.some.injEq] at hx; subst hx; exact X1.orth
      · exact (ho0 hf).left x t hx hl
    · rw [List.getElem?_set_ne (by omega)] at hx
      exact (ho0 hf).right x t hx hl
  have hray : ∀ m1 : MPS, m1.Z = m0.Z → m1.tensors = m0.tensors.set n A →
      Ray e.mps.ds e.lb.u (siteAmp m0 n X) (bondAmp m1 n C) := by
    intro m1 hz ht
    refine ⟨z⁻¹, inv_pos.mpr X1.zpos, fun s hs i hi j => ?_⟩
    rw [siteAmp, bondAmp, hz, ht, chain_set_cutR X1 hlt (p2 ▸ p1) (by rw [q5, M.ds]; exact hs) hi j]
    have hz0 : (z : ℂ) ≠ 0 := by exact_mod_cast X1.zpos.ne'
    push_cast
    field_simp
  have hg1 : TCall.Good e flag (.ten n m0 L0 W0 R0 T0 (if n = e.mps.N - 1 then dt else dt / 2)) := by
    refine ⟨q1, fun hf => ⟨fun x t hx hl => ?_, fun x t hx hl => ?_⟩, M.ds⟩
    · exact (ho0 hf).left x t hx (by omega)
    · exact (ho0 hf).right x t hx (by omega)
  rw [M.ds] at q2
  by_cases hlast : n < e.mps.N - 1
  · rw [if_pos hlast] at h
    rw [if_pos hlast]
    split at h
    · cases h
    rename_i e3 c' he3
    simp only [Except.ok.injEq, Prod.mk.injEq] at h
    obtain ⟨rfl, rfl⟩ := h
    have hne : n ≠ e.mps.N - 1 := by omega
    rw [if_neg hne] at hg1 q3 he3 q2 ⊢
    obtain ⟨r1, ⟨L1, R1, rfl⟩, r2, ⟨Y, rfl, r3⟩, r4, g, r5, r6⟩ := evolveMat_spec (evT := evT) (a := n + 1) (b := n + 1) hM
      (by simp only [List.length_set]; exact M.wf.len) hA1 hA2 (key C1) le_rfl le_rfl (by simp only [M.N]; omega) M.pos he3
    simp only at r1 r2 r4 r5 r6
    refine ⟨⟨r4, M.pos, by simp only [M.sth]; exact hi.sth, key Y, fun hf => ⟨(korth hf).1, (korth hf).2⟩⟩, r3,
      ⟨⟨rfl, rfl, rfl, M.N, M.sth⟩, hds.trans M.ds, hZ⟩, ?_, ?_, ⟨m0, L0, W0, R0, T0, rfl⟩, ⟨_, L1, R1, C, rfl⟩⟩
    · intro c hc
      rcases List.mem_cons.mp hc with rfl | hc
      · exact hg1
      · rw [List.mem_singleton] at hc; subst hc
        exact ⟨r1, fun hf => ⟨fun x t hx hl => (korth hf).1 x t hx (by omega), fun x t hx hl => (korth hf).2 x t hx (by omega)⟩, hds.trans M.ds⟩
    · refine ⟨(ray_moved M).trans q2, _, q3, ?_, g, r5, ?_⟩
      · rw [r2]; exact hray _ rfl rfl
      · have hh : MPS.ds { m0 with mat := C1, tensors := m0.tensors.set n A } = e.mps.ds := hds.trans M.ds
        rw [hh] at r6
        exact r6
  · rw [if_neg hlast] at h
    rw [if_neg hlast]
    simp only [Except.ok.injEq, Prod.mk.injEq] at h
    obtain ⟨rfl, rfl⟩ := h
    refine ⟨⟨⟨by simp only [List.length_set]; exact M.wf.len, M.wf.pos_le, ?_, ?_⟩, M.pos, by simp only [M.sth]; exact hi.sth, key C,
      fun hf => ⟨(korth hf).1, (korth hf).2⟩⟩, X1.norm,
      ⟨⟨rfl, rfl, rfl, M.N, M.sth⟩, hds.trans M.ds, hZ⟩, ?_, ?_, ⟨m0, L0, W0, R0, T0, rfl⟩, rfl⟩
    · simp only [M.pos]; exact hA1
    · simp only [M.pos]; exact hA2
    · intro c hc
      rw [List.mem_singleton] at hc; subst hc; exact hg1
    · refine ⟨(ray_moved M).trans q2, _, q3, ?_⟩
      have h9 := hray { m0 with mat := C, tensors := m0.tensors.set n A } rfl rfl
      refine h9.trans ?_
      have : MPS.amp { m0 with mat := C, tensors := m0.tensors.set n A }
          = bondAmp { m0 with mat := C, tensors := m0.tensors.set n A } n C := by
        funext s i j
        rw [amp_eq_split, bondAmp]; simp only [M.pos]
      rw [this]
      exact Ray.refl _ _ _

/-- One iteration of the left-moving loop. -/
theorem tdvpL_spec (hO : O.Spec) (hT : evT.Shape) (hM : evM.Shape) {e e' : Eng} {n p a b : ℕ} {dt : ℂ} {cs : List TCall}
    (hi : e.TI flag p a b) (hp : p = n + 1 ∨ p = n + 2) (ha : n + 1 ≤ a) (hb : b ≤ n + 2) (hn : n + 1 < e.mps.N)
    (h : e.tdvpL O evT evM sv dt n = .ok (e', cs)) :
    e'.TI flag n n (n + 1) ∧ normF e'.mps.mat = 1 ∧ e.TSame e' ∧ (∀ c ∈ cs, c.Good e flag) ∧
    Flow e.mps.ds e.lb.u evT evM sv cs e.mps.amp e'.mps.amp ∧
    ∃ m L R C m' L' W' R' T', cs = [.mat n m L R C (-(dt / 2)), .ten n m' L' W' R' T' (dt / 2)] := by
  unfold Eng.tdvpL at h
  split at h
  · cases h
  rename_i m0 hm0
  obtain ⟨-, -, M⟩ := position_moved hO (effSth_default hi.sth) hi.wf hm0
  have hZ := position_Z hO (effSth_default hi.sth) hm0
  rw [show ((n : ℤ) + 1).toNat = n + 1 by omega] at M
  have hpos := hi.pos
  have hv0 : ({ e with mps := m0 } : Eng).Val (n + 1) (n + 2) :=
    val_moved hi.val M ha hb (by omega) (by omega)
  have ho0 : flag → ({ e with mps := m0 } : Eng).Orth (n + 1) (n + 1) := fun hf => orth_moved (hpos ▸ hi.orth hf) M
  split at h
  · cases h
  rename_i R hR
  split at h
  · cases h
  rename_i B hB
  split at h
  · cases h
  rename_i W hW
  split at h
  · cases h
  rename_i R' hR'
  split at h
  · cases h
  rename_i Rs hRs
  obtain ⟨hlR, rfl⟩ := setE_ok hRs
  have hB := getItem_nat (n := n + 1) (by push_cast; exact hB)
  have i2 := isR_cons (hv0.right (n + 2) le_rfl (by simp only [M.N]; omega) R (by
    simp only; rw [← getE_ok hR]; congr 1)) hR'
  simp only at i2
  rw [← drop_getElem? hB, ← drop_getElem? (getE_ok hW)] at i2
  have hN0 := M.N
  have hv1 : ({ e with mps := m0, R := e.R.set (m0.N - n - 1) R' } : Eng).Val (n + 1) (n + 1) := by
    refine ⟨hv0.lenL, by simp only [List.length_set]; exact hv0.lenR, hv0.lenW, hv0.left, fun k hk hkN E hE => ?_⟩
    simp only at hE hkN ⊢
    rw [List.getElem?_set] at hE
    split_ifs at hE with h3
    · simp only [Option.some.injEq] at hE; subst hE
      obtain rfl : k = n + 1 := by omega
      exact i2
    · exact hv0.right k (by omega) hkN E hE
  split at h
  · cases h
  rename_i e1 c hc
  have hw0 := M.wf
  obtain ⟨r1, ⟨L1, R1, rfl⟩, r2, ⟨Y, rfl, r3⟩, r4, g, r5, r6⟩ := evolveMat_spec (evT := evT) (a := n + 1) (b := n + 1) hM
    M.wf.len (by simp only; rw [← M.pos]; exact hw0.left) (by simp only; rw [← M.pos]; exact hw0.right) hv1 le_rfl le_rfl
    (by simp only [M.N]; omega) M.pos hc
  simp only at r1 r2 r4 r5 r6 h
  have hv2 : ({ e with mps := { m0 with mat := Y }, R := e.R.set (m0.N - n - 1) R' } : Eng).Val (n + 1) (n + 1) :=
    ⟨hv1.lenL, hv1.lenR, hv1.lenW, hv1.left, hv1.right⟩
  split at h
  · cases h
  rename_i e2 X c' hev
  obtain ⟨q1, ⟨L0, W0, R0, T0, rfl, x1, x2, x3⟩, ⟨C1, rfl⟩, q2, q3, q4, q5⟩ :=
    evolveTen_spec (evM := evM) (a := n + 1) (b := n + 1) hT r4 hv2 (by omega) le_rfl (by simp only [M.N]; omega) hev
  simp only at q1 q2 q3 q4 q5 h
  split at h
  · cases h
  rename_i A C z hpr
  have X1 := prepareTensorL_spec hO hpr
  split at h
  · cases h
  rename_i m1 hm1
  obtain ⟨hlt, rfl⟩ := setItem_ok hm1
  simp only at hlt h
  simp only [Except.ok.injEq, Prod.mk.injEq] at h
  obtain ⟨rfl, rfl⟩ := h
  have hget : (m0.tensors.set n A)[n]? = some A := by rw [List.getElem?_set_self hlt]
  have q4' := q4
  rw [set_take_drop hlt, linked_append] at q4'
  obtain ⟨p', p1, p2, p3⟩ := q4'
  have hA1 : Linked e.lb.u ((m0.tensors.set n A).take n) C.r := by
    rw [List.take_set_of_le le_rfl, X1.rr, p2]; exact p1
  have hA2 : Linked C.c ((m0.tensors.set n A).drop n) e.rb.u := by
    rw [drop_getElem? hget, List.drop_set_of_lt (by omega)]
    exact ⟨X1.l, X1.r ▸ p3⟩
  have hds : (m0.tensors.set n A).map Ten.d = m0.ds := by
    have q5' : (m0.tensors.set n X).map Ten.d = m0.tensors.map Ten.d := q5
    obtain ⟨t, ht⟩ := getElem?_of_lt hlt
    have e1 : X.d = t.d := by
      have h5 := congrArg (fun l => l[n]?) q5'
      simp only [List.getElem?_map, List.getElem?_set_self hlt, ht, Option.map_some, Option.some.injEq] at h5
      exact h5
    rw [map_d_set ht (X1.d.trans e1)]; rfl
  refine ⟨⟨⟨?_, ?_, hA1, hA2⟩, rfl, ?_, ⟨hv1.lenL, hv1.lenR, hv1.lenW, fun k hk E hE => ?_, fun k hk hkN E hE => ?_⟩, ?_⟩, X1.norm,
    ⟨⟨rfl, rfl, rfl, M.N, M.sth⟩, hds.trans M.ds, hZ⟩, ?_, ?_, ⟨_, _, _, _, _, _, _, _, _, rfl⟩⟩
  · simp only [List.length_set]; exact M.wf.len
  · simp only [M.N]; omega
  · simp only [M.sth]; exact hi.sth
  · simp only at hE ⊢
    rw [List.take_set_of_le hk]
    exact hv1.left k (by omega) E hE
  · simp only at hE hkN ⊢
    rw [List.drop_set_of_lt (by omega)]
    exact hv1.right k hk hkN E hE
  · intro hf
    refine ⟨fun x t hx hl => ?_, fun x t hx hl => ?_⟩
    · simp only at hx
      rw [List.getElem?_set_ne (by omega)] at hx
      exact (ho0 hf).left x t hx (by omega)
    · simp only at hx
      rw [List.getElem?_set] at hx
      split_ifs at hx with h3
      · simp only [Option.some.injEq] at hx; subst hx; exact X1.orth
      · exact (ho0 hf).right x t hx (by omega)
  · intro c hc
    rcases List.mem_cons.mp hc with rfl | hc
    · exact ⟨r1, fun hf => ⟨fun x t hx hl => (ho0 hf).left x t hx (by omega), fun x t hx hl => (ho0 hf).right x t hx (by omega)⟩, M.ds⟩
    · rw [List.mem_singleton] at hc; subst hc
      exact ⟨q1, fun hf => ⟨fun x t hx hl => (ho0 hf).left x t hx (by omega), fun x t hx hl => (ho0 hf).right x t hx (by omega)⟩, M.ds⟩
  · have hd : MPS.ds { m0 with mat := Y } = e.mps.ds := M.ds
    rw [hd] at q2 q5
    refine ⟨?_, g, r5, ?_, _, q3, ?_⟩
    · have : m0.amp = bondAmp m0 n m0.mat := by
        funext s i j
        rw [amp_eq_split, bondAmp]; simp only [M.pos]
      rw [r2, ← this]
      exact ray_moved M
    · rw [M.ds] at r6
      exact r6.trans q2
    · refine ⟨z⁻¹, inv_pos.mpr X1.zpos, fun s hs i hi j => ?_⟩
      rw [siteAmp, amp_eq_split]
      simp only
      rw [chain_set_cutL X1 hlt (p2 ▸ p1) (by rw [q5]; exact hs) hi j]
      have hz0 : (z : ℂ) ≠ 0 := by exact_mod_cast X1.zpos.ne'
      push_cast
      field_simp

/-- Spec: what is evolved, where and by how much. -/
inductive TEvt
  | site (n : ℕ) (dt : ℂ)
  | bond (n : ℕ) (dt : ℂ)

/-- Spec: the event of a recorded call. -/
def TCall.evt : TCall → TEvt
  | .ten n _ _ _ _ _ dt => .site n dt
  | .mat n _ _ _ _ dt => .bond n dt

/-- Spec: forward half of a step for the sites `n..n+k-1`. -/
def fwdEvts (dt : ℂ) : ℕ → ℕ → List TEvt
  | 0, _ => []
  | k + 1, n => .site n (dt / 2) :: .bond n (-(dt / 2)) :: fwdEvts dt k (n + 1)

/-- Spec: one TDVP step on `N` sites. -/
def stepEvts (dt : ℂ) (N : ℕ) : List TEvt :=
  fwdEvts dt (N - 1) 0 ++ .site (N - 1) dt :: (fwdEvts dt (N - 1) 0).reverse

theorem fwdEvts_snoc (dt : ℂ) : ∀ k n, fwdEvts dt (k + 1) n
    = fwdEvts dt k n ++ [.site (n + k) (dt / 2), .bond (n + k) (-(dt / 2))]
  | 0, n => rfl
  | k + 1, n => by
    rw [fwdEvts, fwdEvts_snoc dt k (n + 1), fwdEvts]
    simp [Nat.add_comm, Nat.add_left_comm]

theorem tdvpRight_spec (hO : O.Spec) (hT : evT.Shape) (hM : evM.Shape) {dt : ℂ} : ∀ (k n : ℕ) (e e' : Eng) (acc acc' : List TCall)
    (a b : ℕ), e.TI flag n a b → n ≤ a → b ≤ n + 1 → n + k + 1 = e.mps.N →
    Eng.tdvpRight O evT evM sv dt (k + 1) n e acc = .ok (e', acc') →
    ∃ cs, acc' = acc ++ cs ∧ e'.TI flag e.mps.N e.mps.N e.mps.N ∧ normF e'.mps.mat = 1 ∧ e.TSame e' ∧ (∀ c ∈ cs, c.Good e flag) ∧
      Flow e.mps.ds e.lb.u evT evM sv cs e.mps.amp e'.mps.amp ∧
      cs.map TCall.evt = fwdEvts dt k n ++ [.site (e.mps.N - 1) dt] := by
  intro k
  induction k with
  | zero =>
    intro n e e' acc acc' a b hi ha hb hk h
    simp only [Eng.tdvpRight] at h
    split at h
    · cases h
    rename_i e1 c h1
    simp only [Except.ok.injEq, Prod.mk.injEq] at h
    obtain ⟨rfl, rfl⟩ := h
    obtain ⟨s1, s2, s3, s4, s5, ⟨m, L, W, R, T, s6⟩, s7⟩ := tdvpR_spec hO hT hM hi ha hb (by omega) h1
    rw [if_neg (by omega)] at s7
    rw [if_pos (by omega)] at s6
    rw [show n + 1 = e.mps.N by omega] at s1
    refine ⟨c, rfl, s1, s2, s3, s4, s5, ?_⟩
    cases c with
    | nil => cases s6
    | cons x xs =>
      simp only [List.head?_cons, Option.some.injEq, List.tail_cons] at s6 s7
      subst s6; subst s7
      simp only [fwdEvts, List.nil_append, List.map_cons, List.map_nil, TCall.evt]
      rw [show n = e.mps.N - 1 by omega]
  | succ k ih =>
    intro n e e' acc acc' a b hi ha hb hk h
    rw [Eng.tdvpRight] at h
    split at h
    · cases h
    rename_i e1 c h1
    obtain ⟨s1, s2, s3, s4, s5, ⟨m, L, W, R, T, s6⟩, s7⟩ := tdvpR_spec hO hT hM hi ha hb (by omega) h1
    rw [if_pos (by omega)] at s7
    rw [if_neg (by omega)] at s6
    obtain ⟨cs, rfl, t1, t2, t3, t4, t5, t6⟩ := ih (n + 1) e1 e' (acc ++ c) acc' (n + 1) (n + 1) s1 le_rfl (by omega)
      (by rw [s3.same.N]; omega) h
    rw [s3.same.N] at t1 t6
    rw [s3.ds, s3.same.lb] at t5
    refine ⟨c ++ cs, by rw [List.append_assoc], t1, t2, s3.trans t3, ?_, s5.append t5, ?_⟩
    · intro x hx
      rcases List.mem_append.mp hx with hx | hx
      · exact s4 x hx
      · exact (t4 x hx).same s3
    · obtain ⟨m', L', R', C', s7⟩ := s7
      cases c with
      | nil => cases s6
      | cons x xs =>
        simp only [List.head?_cons, Option.some.injEq, List.tail_cons] at s6 s7
        subst s6; subst s7
        rw [List.map_append, t6]
        simp only [List.map_cons, List.map_nil, TCall.evt, fwdEvts, List.cons_append, List.nil_append]

theorem tdvpLeft_spec (hO : O.Spec) (hT : evT.Shape) (hM : evM.Shape) {dt : ℂ} : ∀ (n : ℕ) (e e' : Eng) (acc acc' : List TCall)
    (p a b : ℕ), e.TI flag p a b → (p = n ∨ p = n + 1) → n ≤ a → b ≤ n + 1 → n + 1 ≤ e.mps.N → (n = 0 → p = 0) →
    normF e.mps.mat = 1 →
    Eng.tdvpLeft O evT evM sv dt n e acc = .ok (e', acc') →
    ∃ cs, acc' = acc ++ cs ∧ (∃ b', b' ≤ 1 ∧ e'.TI flag 0 0 b') ∧ normF e'.mps.mat = 1 ∧ e.TSame e' ∧ (∀ c ∈ cs, c.Good e flag) ∧
      Flow e.mps.ds e.lb.u evT evM sv cs e.mps.amp e'.mps.amp ∧
      cs.map TCall.evt = (fwdEvts dt n 0).reverse := by
  intro n
  induction n with
  | zero =>
    intro e e' acc acc' p a b hi hp ha hb hN h0 hnorm h
    simp only [Eng.tdvpLeft, Except.ok.injEq, Prod.mk.injEq] at h
    obtain ⟨rfl, rfl⟩ := h
    obtain rfl := h0 rfl
    exact ⟨[], by simp, ⟨b, hb, hi.wf, hi.pos, hi.sth, hi.val.mono (by omega) le_rfl, hi.orth⟩, hnorm, .refl e, by simp, Ray.refl _ _ _, rfl⟩
  | succ n ih =>
    intro e e' acc acc' p a b hi hp ha hb hN h0 hnorm h
    rw [Eng.tdvpLeft] at h
    split at h
    · cases h
    rename_i e1 c h1
    obtain ⟨s1, s2, s3, s4, s5, m, L, R, C, m', L', W', R', T', rfl⟩ := tdvpL_spec hO hT hM hi hp ha hb (by omega) h1
    obtain ⟨cs, rfl, t1, t2, t3, t4, t5, t6⟩ := ih e1 e' _ acc' n n (n + 1) s1 (Or.inl rfl) le_rfl le_rfl
      (by rw [s3.same.N]; omega) id s2 h
    rw [s3.ds, s3.same.lb] at t5
    refine ⟨_ ++ cs, by rw [List.append_assoc], t1, t2, s3.trans t3, ?_, s5.append t5, ?_⟩
    · intro x hx
      rcases List.mem_append.mp hx with hx | hx
      · exact s4 x hx
      · exact (t4 x hx).same s3
    · rw [List.map_append, t6, fwdEvts_snoc]
      simp [TCall.evt]

/-- One step: both sweeps. -/
theorem tdvpSweep_spec (hO : O.Spec) (hT : evT.Shape) (hM : evM.Shape) {dt : ℂ} {e e1 e2 : Eng} {cs1 cs2 : List TCall} {a b : ℕ}
    (hi : e.TI flag 0 a b) (hb : b ≤ 1) (hN : 2 ≤ e.mps.N)
    (h1 : Eng.tdvpRight O evT evM sv dt e.mps.N 0 e [] = .ok (e1, cs1))
    (h2 : Eng.tdvpLeft O evT evM sv dt (e1.mps.N - 1) e1 cs1 = .ok (e2, cs2)) :
    (∃ b', b' ≤ 1 ∧ e2.TI flag 0 0 b') ∧ normF e2.mps.mat = 1 ∧ e.TSame e2 ∧ (∀ c ∈ cs2, c.Good e flag) ∧
      Flow e.mps.ds e.lb.u evT evM sv cs2 e.mps.amp e2.mps.amp ∧ cs2.map TCall.evt = stepEvts dt e.mps.N := by
  rw [show e.mps.N = e.mps.N - 1 + 1 by omega] at h1
  obtain ⟨cs, r0, r1, r2, r3, r4, r5, r6⟩ := tdvpRight_spec hO hT hM (e.mps.N - 1) 0 e e1 [] cs1 a b hi (by omega) (by omega) (by omega) h1
  rw [List.nil_append] at r0; subst r0
  have hN1 := r3.same.N
  obtain ⟨cs', rfl, t1, t2, t3, t4, t5, t6⟩ := tdvpLeft_spec hO hT hM (e1.mps.N - 1) e1 e2 cs1 cs2 _ _ _ r1 (by omega) (by omega) (by omega)
    (by omega) (by omega) r2 h2
  rw [r3.ds, r3.same.lb] at t5
  refine ⟨t1, t2, r3.trans t3, ?_, r5.append t5, ?_⟩
  · intro x hx
    rcases List.mem_append.mp hx with hx | hx
    · exact r4 x hx
    · exact (t4 x hx).same r3
  · rw [List.map_append, r6, t6, hN1, stepEvts, List.append_assoc, List.singleton_append]

end

end PyTeN
