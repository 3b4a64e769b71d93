import Verif.Engine.Dmrg

/-! # Sweeps and the outer loop of single-site DMRG -/

namespace PyTeN
open Finset

noncomputable section

/-- Everything needed to start the iteration `position(p)`, `optimize(n)`. -/
def Eng.Ready (e : Eng) (flag : Prop) (p n : ℕ) : Prop :=
  ∃ a b, (e.mps.WF e.lb.u e.rb.u ∨ (e.mps.Loose e.lb.u e.rb.u ∧ p ≠ e.mps.pos)) ∧ e.Val a b ∧
    (e.mps.pos < p → e.mps.pos ≤ a ∧ b ≤ n + 1) ∧ (p < e.mps.pos → b ≤ e.mps.pos ∧ n ≤ a) ∧
    (p = e.mps.pos → n ≤ a ∧ b ≤ n + 1) ∧ (flag → e.Orth a b)

/-- State after the iteration `position(p)`, `optimize(n)`, `mps[n]=opt`. -/
structure Eng.Post (e : Eng) (flag : Prop) (p n : ℕ) : Prop where
  loose : e.mps.Loose e.lb.u e.rb.u
  pos : e.mps.pos = p
  val : e.Val n (n + 1)
  orth : flag → e.Orth n (n + 1)

/-- Attributes that a simulation does not change. -/
structure Eng.Same (e e' : Eng) : Prop where
  mpo : e'.mpo = e.mpo
  lb : e'.lb = e.lb
  rb : e'.rb = e.rb
  N : e'.mps.N = e.mps.N
  sth : e'.mps.sth = e.mps.sth

theorem Eng.Same.refl (e : Eng) : e.Same e := ⟨rfl, rfl, rfl, rfl, rfl⟩

theorem Eng.Same.trans {e e1 e2 : Eng} (h : e.Same e1) (h' : e1.Same e2) : e.Same e2 :=
  ⟨h'.mpo.trans h.mpo, h'.lb.trans h.lb, h'.rb.trans h.rb, h'.N.trans h.N, h'.sth.trans h.sth⟩

theorem Eng.Post.ready {e : Eng} {flag : Prop} {p n p' n' : ℕ} (h : e.Post flag p n) (hp : p' ≠ p)
    (h1 : p < p' → p ≤ n ∧ n ≤ n') (h2 : p' < p → n + 1 ≤ p ∧ n' ≤ n) : e.Ready flag p' n' := by
  refine ⟨n, n + 1, Or.inr ⟨h.loose, by rw [h.pos]; exact hp⟩, h.val, ?_, ?_, ?_, h.orth⟩
  · rw [h.pos]; intro h3; have := h1 h3; omega
  · rw [h.pos]; intro h3; have := h2 h3; omega
  · rw [h.pos]; intro h3; exact absurd h3 hp

/-- The eigensolver call is right (spec of a trace entry). -/
def Call.Good (e : Eng) (flag : Prop) (solve : Solve) (sv : Solver) (c : Call) : Prop :=
  CallOK e.lb e.rb e.mpo c ∧ (flag → CallOrth c) ∧ c.mps.N = e.mps.N ∧
    solve sv c.L c.W c.R c.T = .ok (c.energy, c.opt)

theorem Call.Good.same {e e' : Eng} {flag : Prop} {solve : Solve} {sv : Solver} {c : Call} (hs : e.Same e')
    (h : c.Good e' flag solve sv) : c.Good e flag solve sv := by
  obtain ⟨h1, h2, h3, h4⟩ := h
  rw [hs.lb, hs.rb, hs.mpo] at h1
  exact ⟨h1, h2, h3.trans hs.N, h4⟩

variable {O : LinAlg} {solve : Solve} {sv : Solver} {flag : Prop}

theorem step_ready (hO : O.Spec) (hsv : solve.Shape) {e e' : Eng} {p n : ℕ} {c : Call}
    (hlb : e.lb.u = e.lb.w) (hrb : e.rb.u = e.rb.w) (hs : e.mps.sth < 1e-15) (hr : e.Ready flag p n)
    (h : e.step O solve sv p n = .ok (e', c)) (hpn : p = n ∨ p = n + 1) (hn : n < e.mps.N) :
    c.n = n ∧ c.Good e flag solve sv ∧ e'.Post flag p n ∧ e.Same e' ∧
      e'.mps.tensors = c.mps.tensors.set n c.opt := by
  obtain ⟨a, b, hst, hv, c1, c2, c3, ho⟩ := hr
  obtain ⟨s1, s2, s3, s4, s5, s6, s7, s8, s9, s10, s11, s12, s13, -, s15⟩ :=
    step_spec hO hsv hlb hrb hst hs hv h hpn hn c1 c2 c3
  exact ⟨s1, ⟨s2, fun f => (s11 (ho f)).1, s13, s15⟩, ⟨s3, s4, s5, fun f => (s11 (ho f)).2⟩,
    ⟨s6, s7, s8, s9, s10⟩, s12⟩

/-- The right-moving half of a sweep. -/
theorem sweepRight_spec (hO : O.Spec) (hsv : solve.Shape) : ∀ (k n : ℕ) (e e' : Eng) (acc acc' : List Call),
    Eng.sweepRight O solve sv k n e acc = .ok (e', acc') → e.lb.u = e.lb.w → e.rb.u = e.rb.w →
    e.mps.sth < 1e-15 → (0 < k → e.Ready flag n n) → n + k ≤ e.mps.N →
    ∃ cs, acc' = acc ++ cs ∧ cs.map Call.n = List.range' n k ∧ (∀ c ∈ cs, c.Good e flag solve sv) ∧
      e.Same e' ∧ (k = 0 → e' = e) ∧ (0 < k → e'.Post flag (n + k - 1) (n + k - 1)) := by
  intro k
  induction k with
  | zero =>
    intro n e e' acc acc' h _ _ _ _ _
    simp only [Eng.sweepRight, Except.ok.injEq, Prod.mk.injEq] at h
    obtain ⟨rfl, rfl⟩ := h
    exact ⟨[], by simp, rfl, by simp, Eng.Same.refl _, fun _ => rfl, fun h => absurd h (by omega)⟩
  | succ k ih =>
    intro n e e' acc acc' h hlb hrb hs hr hN
    simp only [Eng.sweepRight] at h
    split at h
    · cases h
    rename_i e1 c hstep
    obtain ⟨s1, s2, s3, s4, -⟩ := step_ready hO hsv hlb hrb hs (hr (by omega)) hstep (Or.inl rfl) (by omega)
    obtain ⟨cs, i1, i2, i3, i4, i5, i6⟩ := ih (n + 1) e1 e' _ acc' h (by rw [s4.lb, hlb])
      (by rw [s4.rb, hrb]) (by rw [s4.sth]; exact hs)
      (fun _ => s3.ready (by omega) (fun _ => by omega) (fun h => by omega)) (by rw [s4.N]; omega)
    refine ⟨c :: cs, by rw [i1]; simp, by rw [List.map_cons, i2, s1, List.range'_succ], ?_, s4.trans i4,
      fun h => absurd h (by omega), fun _ => ?_⟩
    · intro c' hc'
      rcases List.mem_cons.mp hc' with rfl | hc'
      · exact s2
      · exact (i3 c' hc').same s4
    · cases k with
      | zero => rw [i5 rfl]; simpa using s3
      | succ k => have := i6 (by omega); rwa [show n + (k + 1 + 1) - 1 = n + 1 + (k + 1) - 1 by omega]

/-- The left-moving half of a sweep. -/
theorem sweepLeft_spec (hO : O.Spec) (hsv : solve.Shape) : ∀ (n : ℕ) (e e' : Eng) (acc acc' : List Call),
    Eng.sweepLeft O solve sv n e acc = .ok (e', acc') → e.lb.u = e.lb.w → e.rb.u = e.rb.w →
    e.mps.sth < 1e-15 → (0 < n → e.Ready flag (n + 1) n) → n < e.mps.N →
    ∃ cs, acc' = acc ++ cs ∧ cs.map Call.n = (List.range' 1 n).reverse ∧ (∀ c ∈ cs, c.Good e flag solve sv) ∧
      e.Same e' ∧ (n = 0 → e' = e) ∧ (0 < n → e'.Post flag 2 1 ∧
        ∃ c, cs.getLast? = some c ∧ e'.mps.tensors = c.mps.tensors.set c.n c.opt) := by
  intro n
  induction n with
  | zero =>
    intro e e' acc acc' h _ _ _ _ _
    simp only [Eng.sweepLeft, Except.ok.injEq, Prod.mk.injEq] at h
    obtain ⟨rfl, rfl⟩ := h
    exact ⟨[], by simp, rfl, by simp, Eng.Same.refl _, fun _ => rfl, fun h => absurd h (by omega)⟩
  | succ n ih =>
    intro e e' acc acc' h hlb hrb hs hr hN
    simp only [Eng.sweepLeft] at h
    split at h
    · cases h
    rename_i e1 c hstep
    obtain ⟨s1, s2, s3, s4, s5⟩ := step_ready hO hsv hlb hrb hs (hr (by omega)) hstep (Or.inr rfl) (by omega)
    obtain ⟨cs, i1, i2, i3, i4, i5, i6⟩ := ih e1 e' _ acc' h (by rw [s4.lb, hlb])
      (by rw [s4.rb, hrb]) (by rw [s4.sth]; exact hs)
      (fun _ => s3.ready (by omega) (fun _ => by omega) (fun h => by omega)) (by rw [s4.N]; omega)
    refine ⟨c :: cs, by rw [i1]; simp, ?_, ?_, s4.trans i4, fun h => absurd h (by omega), fun _ => ?_⟩
    · rw [List.map_cons, i2, s1, List.range'_1_concat, List.reverse_append]; simp [Nat.add_comm]
    · intro c' hc'
      rcases List.mem_cons.mp hc' with rfl | hc'
      · exact s2
      · exact (i3 c' hc').same s4
    · rcases Nat.eq_zero_or_pos n with h0 | h0
      · subst h0
        obtain rfl := i5 rfl
        have : cs = [] := by simpa using i2
        subst this
        exact ⟨s3, c, rfl, by rw [s1]; exact s5⟩
      · obtain ⟨j1, c', j2, j3⟩ := i6 h0
        refine ⟨j1, c', ?_, j3⟩
        rw [List.getLast?_cons, j2]; rfl

/-- Spec: order of the sites visited in one sweep. -/
def dmrgSites (N : ℕ) : List ℕ := List.range (N - 1) ++ (List.range' 1 (N - 1)).reverse

/-- Spec: energy of a sweep, i.e. of its last eigensolver call. -/
def sweepEnergy (cs : List Call) : ℂ := (cs.getLast?.map Call.energy).getD 0

/-- Spec: iteration `i` is a checkpoint. -/
def isCp (cp : Option ℤ) (i : ℕ) : Bool :=
  match cp with
  | none => false
  | some c => decide (c ∣ (i : ℤ))

/-- Spec of the part of a simulation from iteration `it` on, with `energy` the energy of the sweep before. -/
structure SimSpec (solve : Solve) (sv : Solver) (flag : Prop) (Nmax : ℤ) (Econv : ℝ) (cp : Option ℤ) (it : ℕ) (energy : ℂ)
    (e : Eng) (new : List (List Call)) (saved : List (ℕ × MPS)) (res : ℂ) (fin : Eng) : Prop where
  ne : new ≠ []
  sites : ∀ cs ∈ new, cs.map Call.n = dmrgSites e.mps.N
  good : ∀ cs ∈ new, ∀ c ∈ cs, c.Good e flag solve sv
  le : 1 < new.length → ((it + new.length - 1 : ℕ) : ℤ) ≤ Nmax
  ret : res = (new.map sweepEnergy).getLastD 0
  go : ∀ i, i + 1 < new.length → ∀ x y, (energy :: new.map sweepEnergy)[i]? = some x →
    (energy :: new.map sweepEnergy)[i + 1]? = some y → Econv ≤ ‖y - x‖
  stop : Nmax < ((it + new.length : ℕ) : ℤ) ∨ ∀ x, (energy :: new.map sweepEnergy)[new.length - 1]? = some x →
    ‖res - x‖ < Econv
  cp : saved.map Prod.fst = (List.range' it new.length).filter (isCp cp)
  cpst : ∀ i m, (i, m) ∈ saved → ∃ cs c, new[i - it]? = some cs ∧ cs.getLast? = some c ∧
    m.tensors = c.mps.tensors.set c.n c.opt
  last : ∃ cs c, new.getLast? = some cs ∧ cs.getLast? = some c ∧ fin.mps.tensors = c.mps.tensors.set c.n c.opt
  same : e.Same fin

theorem cpDue_ok {cp : Option ℤ} {it : ℕ} {b : Bool} (hit : 0 < it) (h : cpDue cp it = .ok b) :
    b = isCp cp it := by
  unfold cpDue at h
  cases cp with
  | none => simp at h; subst h; rfl
  | some c =>
    simp only [hit, if_true] at h
    split_ifs at h with h1
    simp only [Except.ok.injEq] at h
    subst h
    simp only [isCp, Int.dvd_iff_emod_eq_zero]

theorem simLoop_spec (hO : O.Spec) (hsv : solve.Shape) {Nmax : ℤ} {Econv : ℝ} {cp : Option ℤ} :
    ∀ (fuel it : ℕ) (energy : ℂ) (e : Eng) (sw : List (List Call)) (sd : List (ℕ × MPS)) (res : SimRes),
    Eng.simLoop O solve sv Nmax Econv cp fuel it energy e sw sd = .ok res → 0 < it →
    e.lb.u = e.lb.w → e.rb.u = e.rb.w → e.mps.sth < 1e-15 → e.Ready flag 0 0 → 2 ≤ e.mps.N →
    ∃ new saved, res.sweeps = sw ++ new ∧ res.saved = sd ++ saved ∧
      SimSpec solve sv flag Nmax Econv cp it energy e new saved res.energy res.eng ∧
      res.eng.mps.Z = 1 ∧ res.eng.Post flag 2 1 := by
  intro fuel
  induction fuel with
  | zero => intro it energy e sw sd res h; simp [Eng.simLoop] at h
  | succ fuel ih =>
    intro it energy e sw sd res h hit hlb hrb hs hr hN
    simp only [Eng.simLoop] at h
    split at h
    · cases h
    rename_i e1 c1 h1
    split at h
    · cases h
    rename_i e2 c2 h2
    split at h
    · cases h
    rename_i c hc
    split at h
    · cases h
    rename_i due hdue
    obtain ⟨cs1, a1, a2, a3, a4, a5, a6⟩ := sweepRight_spec hO hsv _ _ _ _ _ _ h1 hlb hrb hs (fun _ => hr)
      (by omega)
    have P1 := a6 (by omega)
    obtain ⟨cs2, b1, b2, b3, b4, -, b6⟩ := sweepLeft_spec (flag := flag) hO hsv _ _ _ _ _ h2 (by rw [a4.lb, hlb])
      (by rw [a4.rb, hrb]) (by rw [a4.sth]; exact hs)
      (fun _ => P1.ready (by rw [a4.N]; omega) (fun _ => by rw [a4.N]; omega) (fun h => by rw [a4.N] at h; omega))
      (by rw [a4.N]; omega)
    obtain ⟨P2, c', d1, d2⟩ := b6 (by rw [a4.N]; omega)
    have S : e.Same e2 := a4.trans b4
    have hc2 : c2 = cs1 ++ cs2 := by rw [b1, a1, List.nil_append]
    have hlast : c2.getLast? = some c' := by rw [hc2, List.getLast?_append, d1]; rfl
    have hcc : c' = c := by rw [hlast] at hc; simpa using hc
    subst hcc
    have hsites : c2.map Call.n = dmrgSites e.mps.N := by
      rw [hc2, List.map_append, a2, b2, dmrgSites, List.range_eq_range', a4.N]
    have hgood : ∀ c ∈ c2, c.Good e flag solve sv := by
      intro c hc
      rw [hc2] at hc
      rcases List.mem_append.mp hc with hc | hc
      · exact a3 c hc
      · exact (b3 c hc).same a4
    have hE : sweepEnergy c2 = c'.energy := by simp [sweepEnergy, hlast]
    have hdue := cpDue_ok hit hdue
    set sv1 : List (ℕ × MPS) := if due then [(it, e2.mps)] else [] with hsv1
    have hsd : (if due = true then sd ++ [(it, e2.mps)] else sd) = sd ++ sv1 := by
      rw [hsv1]; split_ifs <;> simp
    rw [hsd] at h
    have hcp1 : sv1.map Prod.fst = [it].filter (isCp cp) := by
      rw [hsv1, hdue, List.filter_cons, List.filter_nil]; split_ifs <;> rfl
    have hcpm : ∀ i m, (i, m) ∈ sv1 → i = it ∧ m = e2.mps := by
      intro i m h
      rw [hsv1] at h
      split_ifs at h
      · simpa using h
      · simp at h
    split_ifs at h with hstop
    · simp only [Except.ok.injEq] at h
      subst h
      refine ⟨[c2], sv1, rfl, rfl, ⟨by simp, by simpa using hsites, by simpa using hgood, by simp, ?_, by simp, ?_, ?_, ?_,
        ⟨c2, c', rfl, hlast, d2⟩, ⟨S.mpo, S.lb, S.rb, S.N, S.sth⟩⟩, rfl,
        ⟨⟨P2.loose.len, P2.loose.pos_le, P2.loose.link, P2.loose.sq⟩, P2.pos,
        ⟨P2.val.lenL, P2.val.lenR, P2.val.lenW, P2.val.left, P2.val.right⟩, fun f => ⟨(P2.orth f).left, (P2.orth f).right⟩⟩⟩
      · simp [hE]
      · rcases hstop with h | h
        · exact Or.inl h
        · right
          intro x hx
          simp only [List.length_singleton, Nat.sub_self, List.getElem?_cons_zero, Option.some.injEq] at hx
          subst hx; exact h
      · simpa using hcp1
      · intro i m h
        obtain ⟨rfl, rfl⟩ := hcpm i m h
        exact ⟨c2, c', by simp, hlast, d2⟩
    · push Not at hstop
      obtain ⟨new, saved, i1, i2, I, i3, i4⟩ := ih (it + 1) c'.energy e2 _ _ res h (by omega) (by rw [S.lb, hlb])
        (by rw [S.rb, hrb]) (by rw [S.sth]; exact hs) (P2.ready (by omega) (fun h => by omega) (fun _ => by omega))
        (by rw [S.N]; exact hN)
      have hpos : 0 < new.length := List.length_pos_iff.mpr I.ne
      refine ⟨c2 :: new, sv1 ++ saved, by rw [i1]; simp, by rw [i2]; simp, ⟨by simp, ?_, ?_, ?_, ?_, ?_, ?_, ?_, ?_, ?_,
        S.trans I.same⟩, i3, i4⟩
      · intro cs h
        rcases List.mem_cons.mp h with rfl | h
        · exact hsites
        · rw [I.sites cs h, S.N]
      · intro cs h c0 hc0
        rcases List.mem_cons.mp h with rfl | h
        · exact hgood c0 hc0
        · exact (I.good cs h c0 hc0).same S
      · intro _
        rcases Nat.lt_or_ge 1 new.length with h1 | h1
        · have := I.le h1
          simp only [List.length_cons]; omega
        · simp only [List.length_cons]; omega
      · rw [I.ret, List.map_cons]
        obtain ⟨x, xs, hx⟩ := List.exists_cons_of_ne_nil I.ne
        rw [hx]; simp
      · intro i hi x y hx hy
        rw [List.map_cons, hE] at hx hy
        cases i with
        | zero =>
          simp only [List.getElem?_cons_zero, List.getElem?_cons_succ, Option.some.injEq] at hx hy
          subst hx; subst hy; exact hstop.2
        | succ i =>
          rw [List.getElem?_cons_succ] at hx hy
          exact I.go i (by simp at hi; omega) x y hx hy
      · rcases I.stop with h | h
        · left; simp only [List.length_cons]; omega
        · right
          intro x hx
          rw [List.map_cons, hE, List.length_cons, show new.length + 1 - 1 = (new.length - 1) + 1 by omega,
            List.getElem?_cons_succ] at hx
          exact h x hx
      · rw [List.map_append, hcp1, I.cp, List.length_cons, List.range'_succ, ← List.filter_append]; rfl
      · intro i m h
        rcases List.mem_append.mp h with h | h
        · obtain ⟨rfl, rfl⟩ := hcpm i m h
          exact ⟨c2, c', by simp, hlast, d2⟩
        · obtain ⟨cs, c, j1, j2, j3⟩ := I.cpst i m h
          have : it + 1 ≤ i := by
            have hm : i ∈ saved.map Prod.fst := List.mem_map.mpr ⟨_, h, rfl⟩
            rw [I.cp] at hm
            have := (List.mem_filter.mp hm).1
            rw [List.mem_range'_1] at this
            exact this.1
          refine ⟨cs, c, ?_, j2, j3⟩
          rw [show i - it = (i - (it + 1)) + 1 by omega, List.getElem?_cons_succ]; exact j1
      · obtain ⟨cs, c, j1, j2, j3⟩ := I.last
        refine ⟨cs, c, ?_, j2, j3⟩
        rw [List.getLast?_cons, j1]; rfl

/-- Extra fuel does not change the outcome of the outer loop. -/
theorem simLoop_fuel {Nmax : ℤ} {Econv : ℝ} {cp : Option ℤ} :
    ∀ (fuel it : ℕ) (energy : ℂ) (e : Eng) (sw : List (List Call)) (sd : List (ℕ × MPS)) (k : ℕ),
    0 < fuel → Nmax < it + fuel →
    Eng.simLoop O solve sv Nmax Econv cp (fuel + k) it energy e sw sd
      = Eng.simLoop O solve sv Nmax Econv cp fuel it energy e sw sd := by
  intro fuel
  induction fuel with
  | zero => intro it energy e sw sd k h; exact absurd h (by omega)
  | succ fuel ih =>
    intro it energy e sw sd k _ hN
    rw [show fuel + 1 + k = (fuel + k) + 1 by omega]
    simp only [Eng.simLoop]
    split
    · rfl
    split
    · rfl
    split
    · rfl
    split
    · rfl
    by_cases hst : ((it + 1 : ℕ) : ℤ) > Nmax
    · rw [if_pos (Or.inl hst), if_pos (Or.inl hst)]
    · congr 1
      refine ih _ _ _ _ _ _ ?_ ?_
      · omega
      · push_cast at hN ⊢; omega

end

end PyTeN
