import Verif.Engine.Energy
import Verif.Props.Tdvp

/-! # Conservation of the energy by TDVP (C80) -/

namespace PyTeN
open Finset

noncomputable section

variable {O : LinAlg} {evT : EvolveTen} {evM : EvolveMat} {sv : TSolver} {P : ℕ → Prop}

/-- Spec: the number of entries of the tensor or matrix a call evolves. -/
def TCall.size : TCall → ℕ
  | .ten _ _ _ _ _ T _ => T.l * T.r * T.d
  | .mat _ _ _ _ C _ => C.r * C.c

/-- Contract of a site integrator for real time evolution (imaginary `dt`) of tensors with a number of entries in `P`: for
a Hermitian effective Hamiltonian the result is not zero and has the energy expectation value of the initial tensor. -/
def EvolveTen.Conserves (evT : EvolveTen) (sv : TSolver) (P : ℕ → Prop) : Prop :=
  ∀ L W R T dt X, SiteHerm L W R T.l T.r T.d → P (T.l * T.r * T.d) → dt.re = 0 → 0 < T.nsq → evT sv L W R T (sv.time dt) = .ok X →
    0 < X.nsq ∧ siteForm L W R X X * T.nsq = siteForm L W R T T * X.nsq

/-- Contract of a bond integrator for real time evolution. -/
def EvolveMat.Conserves (evM : EvolveMat) (sv : TSolver) (P : ℕ → Prop) : Prop :=
  ∀ L R C dt X, BondHerm L R C.r C.c → P (C.r * C.c) → dt.re = 0 → 0 < C.nsq → evM sv L R C (sv.time dt) = .ok X →
    0 < X.nsq ∧ bondForm L R X X * C.nsq = bondForm L R C C * X.nsq

/-- Spec: the energy `⟨ψ|H|ψ⟩/⟨ψ|ψ⟩`. -/
def energy (lb : Env ℂ) (mpo : List (Mpo ℂ)) (rb : Env ℂ) (ds : List ℕ) (f : Amp) : ℂ :=
  hform lb mpo rb ds f f / nsq ds lb.u rb.u f

theorem linked_ldim_unique {l l' r : ℕ} {As : List (Ten ℂ)} (h : Linked l As r) (h' : Linked l' As r) : l = l' := by
  cases As with
  | nil => exact Eq.trans h (Eq.symm h')
  | cons A As => exact h.1.symm.trans h'.1

theorem mlinked_ldim {K : Type*} {l l' r : ℕ} {Ws : List (Mpo K)} (h : MLinked l Ws r) (h' : MLinked l' Ws r) : l = l' := by
  cases Ws with
  | nil => exact Eq.trans h (Eq.symm h')
  | cons W Ws => exact h.1.symm.trans h'.1

/-- A site call belongs to a site with its environments. -/
theorem siteCtx_of_ok {e : Eng} (hf : e.Fit) {n : ℕ} {m : MPS} {L R : Env ℂ} {W : Mpo ℂ} {T : Ten ℂ} {dt : ℂ}
    (h : TCall.OK e.lb e.rb e.mpo (.ten n m L W R T dt)) (hds : m.ds = e.mps.ds) :
    SiteCtx e.lb e.rb e.mpo e.mps.ds m.tensors n L W R T.l T.r T.d := by
  obtain ⟨h1, h2, h3, h4, h5, h6, h7⟩ := h
  have hlt : n < m.tensors.length := by omega
  have hl := h6
  rw [set_take_drop hlt, linked_append] at hl
  obtain ⟨p, l1, l2, l3⟩ := hl
  have hd : e.mps.ds[n]? = some T.d := by rw [← hds, ← h7]; simp [hlt]
  have hm := hf.mlink
  rw [← List.take_append_drop n e.mpo, mlinked_append, drop_getElem? h3] at hm
  obtain ⟨q, m1, m2, m3⟩ := hm
  have hi := congrArg (fun l => l[n]?) hf.ins
  have ho := congrArg (fun l => l[n]?) hf.outs
  simp only [List.getElem?_map, h3, Option.map_some, hd, Option.some.injEq] at hi ho
  have l4 := h4.w
  rw [← hf.lb] at l4
  have l5 := h5.w
  rw [← hf.rb] at l5
  refine ⟨hlt, h3, h4, h5, ?_, ?_, hd, (linked_rdim_unique h4.u l1).trans l2.symm, (linked_rdim_unique l4 l1).trans l2.symm,
    linked_ldim_unique h5.u l3, linked_ldim_unique l5 l3, hi, ho, m2.trans (mlinked_rdim m1 h4.m), mlinked_ldim m3 h5.m⟩
  · rw [← hds, MPS.ds, List.map_take]
  · rw [← hds, MPS.ds, List.map_drop]

/-- A bond call belongs to a bond with its environments. -/
theorem bondCtx_of_ok {e : Eng} (hf : e.Fit) {n : ℕ} {m : MPS} {L R : Env ℂ} {C : Mat ℂ} {dt : ℂ}
    (h : TCall.OK e.lb e.rb e.mpo (.mat n m L R C dt)) (hds : m.ds = e.mps.ds) :
    BondCtx e.lb e.rb e.mpo e.mps.ds m.tensors (n + 1) L R C.r C.c := by
  obtain ⟨h1, h2, h4, h5, h6, h7⟩ := h
  have hm := hf.mlink
  rw [← List.take_append_drop (n + 1) e.mpo, mlinked_append] at hm
  obtain ⟨q, m1, m2⟩ := hm
  have l4 := h4.w
  rw [← hf.lb] at l4
  have l5 := h5.w
  rw [← hf.rb] at l5
  have hlen := congrArg List.length hf.ins
  rw [← hds, MPS.ds, List.length_map, List.length_map] at hlen
  exact ⟨by omega, hlen, h4, h5, hds, linked_rdim_unique h4.u h6, linked_rdim_unique l4 h6,
    linked_ldim_unique h5.u h7, linked_ldim_unique l5 h7, (mlinked_rdim h4.m m1).trans (mlinked_ldim m2 h5.m)⟩

theorem energy_smul {lb rb : Env ℂ} {mpo : List (Mpo ℂ)} {ds : List ℕ} {c : ℂ} (hc : c ≠ 0) (f : Amp) :
    energy lb mpo rb ds (fun s i j => c * f s i j) = energy lb mpo rb ds f := by
  have h1 : (Complex.normSq c : ℂ) ≠ 0 := by exact_mod_cast (Complex.normSq_pos.mpr hc).ne'
  have h2 : c * star c = (Complex.normSq c : ℂ) := Complex.mul_conj c
  unfold energy
  rw [hform_smul, nsq_smul, h2]
  push_cast
  rw [mul_div_mul_left _ _ h1]

theorem energy_congr {lb rb : Env ℂ} {mpo : List (Mpo ℂ)} {ds : List ℕ} (hw : lb.w = lb.u) {f g : Amp}
    (h : ∀ s, Conf ds s → ∀ i < lb.u, ∀ j, f s i j = g s i j) : energy lb mpo rb ds f = energy lb mpo rb ds g := by
  unfold energy
  rw [hform_congr (fun s hs i hi j _ => h s hs i hi j) (fun s hs i hi j _ => h s hs i (hw ▸ hi) j),
    nsq_congr fun s hs i hi j _ => h s hs i hi j]

theorem energy_ray {lb rb : Env ℂ} {mpo : List (Mpo ℂ)} {ds : List ℕ} (hw : lb.w = lb.u) {f g : Amp} (h : Ray ds lb.u f g) :
    energy lb mpo rb ds g = energy lb mpo rb ds f ∧ (0 < nsq ds lb.u rb.u f → 0 < nsq ds lb.u rb.u g) := by
  obtain ⟨c, hc, h⟩ := h
  have hc0 : (c : ℂ) ≠ 0 := by exact_mod_cast hc.ne'
  refine ⟨(energy_congr hw h).trans (energy_smul hc0 f), fun h0 => ?_⟩
  rw [nsq_congr fun s hs i hi j _ => h s hs i hi j, nsq_smul]
  exact mul_pos (Complex.normSq_pos.mpr hc0) h0

theorem ratio_eq {a b : ℂ} {x y : ℝ} (hx : 0 < x) (hy : 0 < y) (h : a * y = b * x) : a / x = b / y := by
  have hx' : (x : ℂ) ≠ 0 := by exact_mod_cast hx.ne'
  have hy' : (y : ℂ) ≠ 0 := by exact_mod_cast hy.ne'
  rw [div_eq_div_iff hx' hy', h]

/-- A call keeps the energy. -/
theorem call_energy (hT : evT.Conserves sv P) (hM : evM.Conserves sv P) (sT : evT.Shape) (sM : evM.Shape) {e : Eng} (hf : e.Fit)
    (hH : HermH e.lb e.mpo e.rb e.mps.ds) {c : TCall} (hok : c.OK e.lb e.rb e.mpo) (ho : c.Orth) (hds : c.mps.ds = e.mps.ds)
    (hP : P c.size) (hdt : (match c with | .ten _ _ _ _ _ _ dt => dt | .mat _ _ _ _ _ dt => dt).re = 0) {g : Amp} (hg : c.After evT evM sv g)
    (h0 : 0 < nsq e.mps.ds e.lb.u e.rb.u c.before) :
    energy e.lb e.mpo e.rb e.mps.ds g = energy e.lb e.mpo e.rb e.mps.ds c.before ∧ 0 < nsq e.mps.ds e.lb.u e.rb.u g := by
  cases c with
  | ten n m L W R T dt =>
    obtain ⟨X, hX, rfl⟩ := hg
    have C := siteCtx_of_ok hf hok hds
    obtain ⟨x1, x2, x3⟩ := sT _ _ _ _ _ _ _ hX
    have n1 := C.nsq (T := T) ⟨rfl, rfl, rfl⟩ ho.1 ho.2
    have n2 := C.nsq (T := X) ⟨x1, x2, x3⟩ ho.1 ho.2
    have f1 := C.form (T := T) (X := T) ⟨rfl, rfl, rfl⟩ ⟨rfl, rfl, rfl⟩
    have f2 := C.form (T := X) (X := X) ⟨x1, x2, x3⟩ ⟨x1, x2, x3⟩
    have hb : nsq e.mps.ds e.lb.u e.rb.u (siteAmp m n T) = Complex.normSq m.Z * T.nsq := by
      unfold siteAmp; rw [nsq_smul, n1]
    have ha : nsq e.mps.ds e.lb.u e.rb.u (siteAmp m n X) = Complex.normSq m.Z * X.nsq := by
      unfold siteAmp; rw [nsq_smul, n2]
    simp only [TCall.before, hb] at h0 ⊢
    have hz : m.Z ≠ 0 := by rintro hz; rw [hz, map_zero, zero_mul] at h0; exact lt_irrefl _ h0
    have hz' := Complex.normSq_pos.mpr hz
    have ht : 0 < T.nsq := (mul_pos_iff_of_pos_left hz').mp h0
    obtain ⟨k1, k2⟩ := hT L W R T dt X (C.herm hH) hP hdt ht hX
    refine ⟨?_, ha ▸ mul_pos hz' k1⟩
    unfold siteAmp
    rw [energy_smul hz, energy_smul hz]
    unfold energy
    rw [n1, n2, f1, f2]
    exact ratio_eq k1 ht k2
  | mat n m L R C dt =>
    obtain ⟨X, hX, rfl⟩ := hg
    have K := bondCtx_of_ok hf hok hds
    obtain ⟨x1, x2⟩ := sM _ _ _ _ _ _ hX
    have o1 : ∀ x t, m.tensors[x]? = some t → x < n + 1 → LeftOrth t := fun x t hx hl => ho.1 x t hx (by omega)
    have o2 : ∀ x t, m.tensors[x]? = some t → n + 1 ≤ x → RightOrth t := fun x t hx hl => ho.2 x t hx (by omega)
    have n1 := K.nsq (C := C) ⟨rfl, rfl⟩ o1 o2
    have n2 := K.nsq (C := X) ⟨x1, x2⟩ o1 o2
    have f1 := K.form hf.lb.symm (C := C) (X := C) ⟨rfl, rfl⟩ ⟨rfl, rfl⟩
    have f2 := K.form hf.lb.symm (C := X) (X := X) ⟨x1, x2⟩ ⟨x1, x2⟩
    have hb : nsq e.mps.ds e.lb.u e.rb.u (bondAmp m n C) = Complex.normSq m.Z * C.nsq := by
      unfold bondAmp; rw [nsq_smul, n1]
    have ha : nsq e.mps.ds e.lb.u e.rb.u (bondAmp m n X) = Complex.normSq m.Z * X.nsq := by
      unfold bondAmp; rw [nsq_smul, n2]
    simp only [TCall.before, hb] at h0 ⊢
    have hz : m.Z ≠ 0 := by rintro hz; rw [hz, map_zero, zero_mul] at h0; exact lt_irrefl _ h0
    have hz' := Complex.normSq_pos.mpr hz
    have ht : 0 < C.nsq := (mul_pos_iff_of_pos_left hz').mp h0
    obtain ⟨k1, k2⟩ := hM L R C dt X (K.herm hH) hP hdt ht hX
    refine ⟨?_, ha ▸ mul_pos hz' k1⟩
    unfold bondAmp
    rw [energy_smul hz, energy_smul hz]
    unfold energy
    rw [n1, n2, f1, f2]
    exact ratio_eq k1 ht k2

/-- Spec: the step of a recorded call. -/
def TEvt.dt : TEvt → ℂ
  | .site _ t => t
  | .bond _ t => t

theorem flow_energy (hT : evT.Conserves sv P) (hM : evM.Conserves sv P) (sT : evT.Shape) (sM : evM.Shape) {e : Eng} (hf : e.Fit)
    (hH : HermH e.lb e.mpo e.rb e.mps.ds) : ∀ {cs : List TCall} {f g : Amp},
    (∀ c ∈ cs, c.OK e.lb e.rb e.mpo ∧ c.Orth ∧ c.mps.ds = e.mps.ds ∧ P c.size ∧ c.evt.dt.re = 0) →
    Flow e.mps.ds e.lb.u evT evM sv cs f g → 0 < nsq e.mps.ds e.lb.u e.rb.u f →
    energy e.lb e.mpo e.rb e.mps.ds g = energy e.lb e.mpo e.rb e.mps.ds f ∧ 0 < nsq e.mps.ds e.lb.u e.rb.u g
  | [], f, g, _, h, h0 => ⟨(energy_ray hf.lb.symm h).1, (energy_ray (mpo := []) hf.lb.symm h).2 h0⟩
  | c :: cs, f, g, hc, ⟨h1, x, h2, h3⟩, h0 => by
    obtain ⟨c1, c2, c3, c5, c4⟩ := hc c (by simp)
    obtain ⟨r1, r2⟩ := energy_ray (mpo := e.mpo) (rb := e.rb) hf.lb.symm h1
    obtain ⟨k1, k2⟩ := call_energy hT hM sT sM hf hH c1 c2 c3 c5 (by cases c <;> exact c4) h2 (r2 h0)
    obtain ⟨i1, i2⟩ := flow_energy hT hM sT sM hf hH (fun c' h' => hc c' (by simp [h'])) h3 k2
    exact ⟨i1.trans (k1.trans r1), i2⟩

theorem fwdEvts_re {dt : ℂ} (h : dt.re = 0) : ∀ k n, ∀ x ∈ fwdEvts dt k n, x.dt.re = 0
  | 0, _, x, hx => by simp [fwdEvts] at hx
  | k + 1, n, x, hx => by
    simp only [fwdEvts, List.mem_cons] at hx
    rcases hx with rfl | rfl | hx
    · simp [TEvt.dt, h]
    · simp [TEvt.dt, h]
    · exact fwdEvts_re h k (n + 1) x hx

theorem stepEvts_re {dt : ℂ} (h : dt.re = 0) (N : ℕ) : ∀ x ∈ stepEvts dt N, x.dt.re = 0 := by
  intro x hx
  simp only [stepEvts, List.mem_append, List.mem_cons, List.mem_reverse] at hx
  rcases hx with hx | rfl | hx
  · exact fwdEvts_re h _ _ x hx
  · exact h
  · exact fwdEvts_re h _ _ x hx

/-- The squared norm of a canonical state. -/
theorem canonical_nsq {m : MPS} {l r : ℕ} (hw : m.WF l r) (hc : m.Canonical) : nsq m.ds l r m.amp = Complex.normSq m.Z := by
  exact canonical_normSq hw hc

/-- **C80.**  A TDVP run in real time (imaginary `dt`) with a Hermitian MPO, started from a canonical state, keeps the
energy `⟨ψ|H|ψ⟩/⟨ψ|ψ⟩` exactly, for any bond dimension and step, if the integrators keep it in their local problems. -/
theorem C80_energy (hO : O.Spec) (sT : evT.Shape) (sM : evM.Shape) (hT : evT.Conserves sv P) (hM : evM.Conserves sv P) {dt : ℂ}
    (hdt : dt.re = 0) {n : ℕ} {cp : Option ℤ} {keep : Bool} {v : ℤ} {w w' : World} {css : List (List TCall)}
    (hs : w.evo.eng.TStart) (hZ : PosC w.evo.eng.mps.Z) (hc : w.evo.eng.mps.Canonical) (hf : w.evo.eng.Fit)
    (hH : HermH w.evo.eng.lb w.evo.eng.mpo w.evo.eng.rb w.evo.eng.mps.ds)
    (h : doTDVP O evT evM sv dt n cp keep v w = .ok (w', css)) (hP : ∀ c ∈ css.flatten, P c.size) :
    energy w.evo.eng.lb w.evo.eng.mpo w.evo.eng.rb w.evo.eng.mps.ds w'.evo.eng.mps.amp
      = energy w.evo.eng.lb w.evo.eng.mpo w.evo.eng.rb w.evo.eng.mps.ds w.evo.eng.mps.amp ∧
    nsq w.evo.eng.mps.ds w.evo.eng.lb.u w.evo.eng.rb.u w'.evo.eng.mps.amp = 1 := by
  obtain ⟨h1, h2, h3, h4, h5, h6, h7, h8, h9, h10, h11⟩ := C39_schedule hO sT sM hs hZ h
  have hz : 0 < nsq w.evo.eng.mps.ds w.evo.eng.lb.u w.evo.eng.rb.u w.evo.eng.mps.amp := by
    rw [canonical_nsq hs.wf hc]
    obtain ⟨x, hx, hZ⟩ := hZ
    rw [hZ]
    exact Complex.normSq_pos.mpr (by exact_mod_cast hx.ne')
  refine ⟨(flow_energy hT hM sT sM hf hH (fun c hc' => ?_) h3 hz).1, ?_⟩
  · have hp := hP c hc'
    obtain ⟨cs, hcs, hc'⟩ := List.mem_flatten.mp hc'
    obtain ⟨e1, e2⟩ := h2 cs hcs
    obtain ⟨k1, k2, k3⟩ := e2 c hc'
    refine ⟨k1, k2 hc, k3, hp, stepEvts_re hdt w.evo.eng.mps.N _ ?_⟩
    rw [← e1]
    exact List.mem_map_of_mem hc'
  · have := canonical_nsq h4.wf (h11 hc)
    rw [h7, h8, h9, h6, map_one] at this
    exact this

end

end PyTeN
