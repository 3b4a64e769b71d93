import Verif.Props.Tebd
import Verif.Engine.TdvpProgress

/-! # Properties of TDVP (C37–C39, C68, C70) -/

namespace PyTeN
open Finset

noncomputable section

variable {O : LinAlg} {evT : EvolveTen} {evM : EvolveMat} {sv : TSolver}

/-! ## C39 -/

/-- Spec: total time of the site calls at `n`. -/
def siteTime (n : ℕ) (es : List TEvt) : ℂ := (es.map fun | .site m t => if m = n then t else 0 | .bond _ _ => 0).sum

/-- Spec: total time of the bond calls between `n` and `n+1`. -/
def bondTime (n : ℕ) (es : List TEvt) : ℂ := (es.map fun | .site _ _ => 0 | .bond m t => if m = n then t else 0).sum

/-- Spec: where TDVP may be started: the state is consistent and the environments right of site 0 are up to date. -/
structure Eng.TStart (e : Eng) : Prop where
  wf : e.mps.WF e.lb.u e.rb.u
  sth : e.mps.sth < 1e-15
  pos : e.mps.pos ≤ 1
  two : 2 ≤ e.mps.N
  val : e.Val 0 1

/-- What `doTDVP` starts the sweeps from. -/
theorem tdvp_start (hO : O.Spec) {e : Eng} (hs : e.TStart) {m0 : MPS} (h : e.mps.position O 0 = .ok m0) :
    ({ e with mps := m0 } : Eng).TReady e.mps.Canonical ∧ e.TSame { e with mps := m0 } ∧
      Ray e.mps.ds e.lb.u e.mps.amp m0.amp ∧ (e.mps.Canonical → normF m0.mat = 1) := by
  obtain ⟨-, -, M⟩ := position_moved hO (effSth_default hs.sth) hs.wf h
  have hZ := position_Z hO (effSth_default hs.sth) h
  rw [Int.toNat_zero] at M
  have hp := hs.pos
  refine ⟨⟨0, 1, le_rfl, M.wf, M.pos, by simp only [M.sth]; exact hs.sth, val_moved hs.val M le_rfl le_rfl (by omega) (by omega),
    fun hc => orth_moved ⟨hc.left, hc.right⟩ M⟩, ⟨⟨rfl, rfl, rfl, M.N, M.sth⟩, M.ds, hZ⟩, ray_moved M, fun hc => ?_⟩
  by_cases h0 : (0 : ℕ) = e.mps.pos
  · have : m0 = e.mps := position_stay h0.symm h
    rw [this]; exact hc.norm
  · exact M.norm h0

/-- **C39.** Every step of a TDVP run on `N ≥ 2` sites performs the same events: forward over sites and bonds with `dt/2`
and `-dt/2`, the last site with `dt`, and back.  Every call gets the tensor, MPO tensor and environments belonging to the
state at that time, orthonormal if the state was canonical; replacing the local tensor by the result of the integrator at
each call takes the initial state to the final one, up to positive factors.  The run ends at position 0, normalised. -/
theorem C39_schedule (hO : O.Spec) (hT : evT.Shape) (hM : evM.Shape) {dt : ℂ} {n : ℕ} {cp : Option ℤ} {keep : Bool} {v : ℤ}
    {w w' : World} {css : List (List TCall)} (hs : w.evo.eng.TStart) (hZ : PosC w.evo.eng.mps.Z)
    (h : doTDVP O evT evM sv dt n cp keep v w = .ok (w', css)) :
    css.length = n ∧
    (∀ cs ∈ css, cs.map TCall.evt = stepEvts dt w.evo.eng.mps.N ∧
      ∀ c ∈ cs, c.OK w.evo.eng.lb w.evo.eng.rb w.evo.eng.mpo ∧ (w.evo.eng.mps.Canonical → c.Orth) ∧
        c.mps.ds = w.evo.eng.mps.ds) ∧
    Flow w.evo.eng.mps.ds w.evo.eng.lb.u evT evM sv css.flatten w.evo.eng.mps.amp w'.evo.eng.mps.amp ∧
    w'.evo.eng.TStart ∧ w'.evo.eng.mps.pos = 0 ∧ w'.evo.eng.mps.Z = 1 ∧ w'.evo.eng.mps.ds = w.evo.eng.mps.ds ∧
    w'.evo.eng.lb = w.evo.eng.lb ∧ w'.evo.eng.rb = w.evo.eng.rb ∧ w'.evo.eng.mpo = w.evo.eng.mpo ∧
    (w.evo.eng.mps.Canonical → w'.evo.eng.mps.Canonical) := by
  obtain ⟨-, m0, e1, m1, hm0, hit, hm1, he, -⟩ := doTDVP_spec h
  obtain ⟨hr, hsame, hray, hn0⟩ := tdvp_start hO hs hm0
  obtain ⟨⟨a, b, hb, t1⟩, t2, t3, t4, t5, t6⟩ := tdvpIter_spec hO hT hM n hr (by rw [hsame.same.N]; exact hs.two) hit
  obtain rfl : m1 = e1.mps := position_stay t1.pos hm1
  have hts := hsame.trans t3
  obtain ⟨z, hz, hZ1⟩ := hts.Z
  have hZ' : PosC e1.mps.Z := by rw [hZ1]; exact hZ.mul ⟨z, hz, rfl⟩
  rw [he]
  refine ⟨t4, fun cs hcs => ?_, ?_, ⟨?_, ?_, ?_, ?_, ?_⟩, t1.pos, rfl, hts.ds, hts.same.lb, hts.same.rb, hts.same.mpo, ?_⟩
  · obtain ⟨u1, u2⟩ := t5 cs hcs
    exact ⟨by rw [← hsame.same.N]; exact u1, fun c hc => (u2 c hc).same hsame⟩
  · obtain ⟨x, hx, hxZ⟩ := hZ'
    have hfin : Ray w.evo.eng.mps.ds w.evo.eng.lb.u e1.mps.amp e1.mps.resetZ.amp := by
      refine ⟨x⁻¹, inv_pos.mpr hx, fun s _ i _ j => ?_⟩
      rw [resetZ_amp e1.mps, hxZ]
      have : (x : ℂ) ≠ 0 := by exact_mod_cast hx.ne'
      push_cast
      field_simp
    have h6 := (Flow.ray hray (by rw [← hsame.ds]; exact t6)).append (cs' := []) (h := e1.mps.resetZ.amp) hfin
    rwa [List.append_nil] at h6
  · exact ⟨t1.wf.len, t1.wf.pos_le, t1.wf.left, t1.wf.right⟩
  · exact t1.sth
  · show e1.mps.pos ≤ 1
    rw [t1.pos]; exact Nat.zero_le 1
  · show 2 ≤ e1.mps.N
    rw [hts.same.N]; exact hs.two
  · have := t1.val.mono (Nat.zero_le a) hb
    exact ⟨this.lenL, this.lenR, this.lenW, this.left, this.right⟩
  · intro hc
    have ho := t1.orth hc
    have hp := t1.pos
    refine ⟨fun x t hx hl => ?_, fun x t hx hl => ?_, ?_⟩
    · exact ho.left x t hx (hp ▸ hl)
    · exact ho.right x t hx (hp ▸ hl)
    · rcases t2 with rfl | t2
      · simp only [tdvpIter, Except.ok.injEq, Prod.mk.injEq] at hit
        show normF e1.mps.mat = 1
        rw [← hit.1]; exact hn0 hc
      · exact t2

theorem siteTime_append (n : ℕ) (a b : List TEvt) : siteTime n (a ++ b) = siteTime n a + siteTime n b := by simp [siteTime]

theorem bondTime_append (n : ℕ) (a b : List TEvt) : bondTime n (a ++ b) = bondTime n a + bondTime n b := by simp [bondTime]

theorem siteTime_reverse (n : ℕ) (a : List TEvt) : siteTime n a.reverse = siteTime n a := by
  simp [siteTime, List.map_reverse, List.sum_reverse]

theorem bondTime_reverse (n : ℕ) (a : List TEvt) : bondTime n a.reverse = bondTime n a := by
  simp [bondTime, List.map_reverse, List.sum_reverse]

theorem siteTime_fwd (dt : ℂ) (x : ℕ) : ∀ k n, siteTime x (fwdEvts dt k n) = if n ≤ x ∧ x < n + k then dt / 2 else 0
  | 0, n => by rw [if_neg (by omega)]; rfl
  | k + 1, n => by
    have := siteTime_fwd dt x k (n + 1)
    simp only [siteTime, fwdEvts, List.map_cons, List.sum_cons] at this ⊢
    rw [this]
    by_cases h : n = x
    · subst h; rw [if_pos rfl, if_neg (by omega), if_pos ⟨le_rfl, by omega⟩]; simp
    · rw [if_neg h, zero_add, zero_add]; exact if_congr (by omega) rfl rfl

theorem bondTime_fwd (dt : ℂ) (x : ℕ) : ∀ k n, bondTime x (fwdEvts dt k n) = if n ≤ x ∧ x < n + k then -(dt / 2) else 0
  | 0, n => by rw [if_neg (by omega)]; rfl
  | k + 1, n => by
    have := bondTime_fwd dt x k (n + 1)
    simp only [bondTime, fwdEvts, List.map_cons, List.sum_cons] at this ⊢
    rw [this]
    by_cases h : n = x
    · subst h; rw [if_pos rfl, if_neg (by omega), if_pos ⟨le_rfl, by omega⟩]; simp
    · rw [if_neg h, zero_add, zero_add]; exact if_congr (by omega) rfl rfl

/-- **C39.** Every step is symmetric under time reversal; in a run of `numsteps` steps every site is evolved by
`numsteps*dt` and every bond by `-numsteps*dt`. -/
theorem C39_symmetric (hO : O.Spec) (hT : evT.Shape) (hM : evM.Shape) {dt : ℂ} {n : ℕ} {cp : Option ℤ} {keep : Bool} {v : ℤ}
    {w w' : World} {css : List (List TCall)} (hs : w.evo.eng.TStart) (hZ : PosC w.evo.eng.mps.Z)
    (h : doTDVP O evT evM sv dt n cp keep v w = .ok (w', css)) :
    (∀ cs ∈ css, (cs.map TCall.evt).reverse = cs.map TCall.evt) ∧
    (∀ x < w.evo.eng.mps.N, siteTime x (css.flatten.map TCall.evt) = n * dt) ∧
    (∀ x, x + 1 < w.evo.eng.mps.N → bondTime x (css.flatten.map TCall.evt) = -(n * dt)) := by
  obtain ⟨h1, h2, -⟩ := C39_schedule hO hT hM hs hZ h
  have hN := hs.two
  have hev : css.flatten.map TCall.evt = (List.replicate n (stepEvts dt w.evo.eng.mps.N)).flatten := by
    rw [List.map_flatten]
    congr 1
    rw [List.eq_replicate_iff]
    refine ⟨by rw [List.length_map, h1], fun b hb => ?_⟩
    obtain ⟨cs, hcs, rfl⟩ := List.mem_map.mp hb
    exact (h2 cs hcs).1
  have hrep : ∀ (f : List TEvt → ℂ), f [] = 0 → (∀ a b, f (a ++ b) = f a + f b) → ∀ (k : ℕ) l, f (List.replicate k l).flatten = k * f l := by
    intro f h0 hadd k l
    induction k with
    | zero => simp [h0]
    | succ k ih => rw [List.replicate_succ, List.flatten_cons, hadd, ih]; push_cast; ring
  refine ⟨fun cs hcs => ?_, fun x hx => ?_, fun x hx => ?_⟩
  · rw [(h2 cs hcs).1]
    simp [stepEvts]
  · rw [hev, hrep (siteTime x) rfl (siteTime_append x)]
    congr 1
    rw [stepEvts, siteTime_append, show (TEvt.site (w.evo.eng.mps.N - 1) dt :: (fwdEvts dt (w.evo.eng.mps.N - 1) 0).reverse)
      = [TEvt.site (w.evo.eng.mps.N - 1) dt] ++ (fwdEvts dt (w.evo.eng.mps.N - 1) 0).reverse from rfl, siteTime_append, siteTime_reverse,
      siteTime_fwd]
    by_cases hl : x = w.evo.eng.mps.N - 1
    · rw [if_neg (by omega)]; simp [siteTime, hl]
    · rw [if_pos (by omega)]; simp [siteTime, Ne.symm hl]
  · rw [hev, hrep (bondTime x) rfl (bondTime_append x), ← mul_neg]
    congr 1
    rw [stepEvts, bondTime_append, show (TEvt.site (w.evo.eng.mps.N - 1) dt :: (fwdEvts dt (w.evo.eng.mps.N - 1) 0).reverse)
      = [TEvt.site (w.evo.eng.mps.N - 1) dt] ++ (fwdEvts dt (w.evo.eng.mps.N - 1) 0).reverse from rfl, bondTime_append, bondTime_reverse,
      bondTime_fwd, if_pos (by omega)]
    simp [bondTime]
    ring

theorem flow_still {ds : List ℕ} {l : ℕ} (hT : ∀ L W R T, evT .ivp L W R T 0 = .ok T) (hM : ∀ L R C, evM .ivp L R C 0 = .ok C) :
    ∀ {cs : List TCall} {f g : Amp}, (∀ c ∈ cs, match c with | .ten _ _ _ _ _ _ t => t.im = 0 | .mat _ _ _ _ _ t => t.im = 0) →
    Flow ds l evT evM .ivp cs f g → Ray ds l f g
  | [], _, _, _, h => h
  | c :: cs, f, g, hc, ⟨h1, x, h2, h3⟩ => by
    have h4 := flow_still hT hM (fun c hc' => hc c (List.mem_cons_of_mem _ hc')) h3
    have h5 := hc c List.mem_cons_self
    refine h1.trans (?_ : Ray ds l c.before g)
    have : x = c.before := by
      cases c with
      | ten n m L W R T t =>
        obtain ⟨X, hX, rfl⟩ := h2
        simp only at h5
        rw [show TSolver.time .ivp t = 0 by simp [TSolver.time, h5], hT] at hX
        cases hX; rfl
      | mat n m L R C t =>
        obtain ⟨X, hX, rfl⟩ := h2
        simp only at h5
        rw [show TSolver.time .ivp t = 0 by simp [TSolver.time, h5], hM] at hX
        cases hX; rfl
    rw [← this]; exact h4

theorem evt_im {dt : ℂ} (h : dt.im = 0) : ∀ {N : ℕ} {e : TEvt}, e ∈ stepEvts dt N →
    match e with | .site _ t => t.im = 0 | .bond _ t => t.im = 0 := by
  have hf : ∀ k n, ∀ e ∈ fwdEvts dt k n, match e with | .site _ t => t.im = 0 | .bond _ t => t.im = 0 := by
    intro k
    induction k with
    | zero => intro n e he; cases he
    | succ k ih =>
      intro n e he
      simp only [fwdEvts, List.mem_cons] at he
      rcases he with rfl | rfl | he
      · simp [h]
      · simp [h]
      · exact ih _ _ he
  intro N e he
  simp only [stepEvts, List.mem_append, List.mem_cons, List.mem_reverse] at he
  rcases he with he | rfl | he
  · exact hf _ _ _ he
  · exact h
  · exact hf _ _ _ he

/-- An unknown solver name is refused before anything happens; the error is a KeyError raised by `str.format` on the message
string, not the intended ValueError. -/
theorem C39_unknown_solver (dt : ℂ) (n : ℤ) (cp : Option ℤ) (keep : Bool) (v : ℤ) (w : World) :
    doTDVP O evT evM .other dt n cp keep v w = .error .key := by
  simp [doTDVP]

/-- **C39 is violated** for imaginary-time evolution with the `solve_ivp` methods: they are handed the imaginary part of
the step only, so for real `dt` and integrators that do nothing in time 0 the run leaves the state where it is, whatever the
Hamiltonian and the number of steps. -/
theorem C39_ivp_real_step_violated (hO : O.Spec) (hT : evT.Shape) (hM : evM.Shape) (h0T : ∀ L W R T, evT .ivp L W R T 0 = .ok T)
    (h0M : ∀ L R C, evM .ivp L R C 0 = .ok C) {dt : ℂ} (hdt : dt.im = 0) {n : ℕ} {cp : Option ℤ} {keep : Bool} {v : ℤ}
    {w w' : World} {css : List (List TCall)} (hs : w.evo.eng.TStart) (hZ : PosC w.evo.eng.mps.Z)
    (h : doTDVP O evT evM .ivp dt n cp keep v w = .ok (w', css)) :
    Ray w.evo.eng.mps.ds w.evo.eng.lb.u w.evo.eng.mps.amp w'.evo.eng.mps.amp := by
  obtain ⟨-, h2, h3, -⟩ := C39_schedule hO hT hM hs hZ h
  refine flow_still h0T h0M (fun c hc => ?_) h3
  obtain ⟨cs, hcs, hc'⟩ := List.mem_flatten.mp hc
  have hm : c.evt ∈ stepEvts dt w.evo.eng.mps.N := by
    rw [← (h2 cs hcs).1]; exact List.mem_map.mpr ⟨c, hc', rfl⟩
  have := evt_im hdt hm
  cases c <;> exact this

/-- **C39.** With integrators that do not destroy the tensor, a run from a canonical state with up-to-date environments, a
fitting MPO and bond dimensions that do not exceed what the neighbouring legs allow never raises, and all bond dimensions
are kept.  The integrators have to cope with the calls in `Q` only, which are those that belong to the engine. -/
theorem C39_progress {Q : TCall → Prop} (hO : O.Spec) (hT : evT.Shape) (hM : evM.Shape) (lT : evT.Live sv Q) (lM : evM.Live sv Q)
    (hsv : sv ≠ .other) (dt : ℂ) (n : ℕ) {cp : Option ℤ} (hcp : cp ≠ some 0) (keep : Bool) (v : ℤ) {w : World} (hs : w.evo.eng.TStart)
    (hf : w.evo.eng.Fit) (hc : w.evo.eng.mps.Canonical) (hZ : w.evo.eng.mps.Z ≠ 0) (hadm : ∀ t ∈ w.evo.eng.mps.tensors, t.Adm)
    (hsq : w.evo.eng.mps.mat.r = w.evo.eng.mps.mat.c) (hQ : w.evo.eng.Admits dt Q) :
    ∃ w' css, doTDVP O evT evM sv dt n cp keep v w = .ok (w', css) ∧
      w'.evo.eng.mps.tensors.map Ten.shape = w.evo.eng.mps.tensors.map Ten.shape ∧
      ∀ c ∈ css.flatten, c.Shaped (w.evo.eng.mps.tensors.map Ten.shape) := by
  obtain ⟨s, i, j, a1, a2, -, a3⟩ := canonical_amp (ds := w.evo.eng.mps.ds) ⟨hs.wf, rfl, hs.sth, hZ⟩ hc
  obtain ⟨m0, hm0⟩ := position_ok (b := 0) hO hs.wf hs.sth ⟨s, i, j, conf_cfg a1, a2, a3⟩ (by omega)
  obtain ⟨sh0, sq0⟩ := position_shape hO hs.sth hm0 hadm hsq
  obtain ⟨⟨a, b, hb, t1⟩, hsame, hray, hn0⟩ := tdvp_start hO hs hm0
  have hr : ({ w.evo.eng with mps := m0 } : Eng).TReady True := ⟨a, b, hb, t1.wf, t1.pos, t1.sth, t1.val, fun _ => t1.orth hc⟩
  have hl : ({ w.evo.eng with mps := m0 } : Eng).TLive dt Q := by
    refine ⟨hf.same hsame, hn0 hc, ?_, adm_shape sh0 hadm, sq0, hQ.same rfl rfl rfl hsame.ds sh0⟩
    obtain ⟨z, hz, hZ1⟩ := hsame.Z
    rw [hZ1]; exact mul_ne_zero hZ (by exact_mod_cast hz.ne')
  obtain ⟨w1, css, h1, h2, h3, h4, h5⟩ := tdvpLoop_ok (dt := dt) (v := v) (keep := keep) hO hT hM lT lM hcp n "None"
    ⟨{ w.evo with eng := { w.evo.eng with mps := m0 } }, w.disk⟩ [] hr hl (by rw [hsame.same.N]; exact hs.two)
  obtain ⟨a', b', -, u1⟩ := h2
  obtain ⟨m1, hm1⟩ := position_ok (b := 0) hO u1.wf u1.sth (ti_amp u1 h3.norm h3.Z) (by omega)
  obtain ⟨sh1, -⟩ := position_shape hO u1.sth hm1 h3.adm h3.sq
  unfold doTDVP
  rw [if_neg hsv]
  simp only [show w.evo.eng.mps.position O 0 = .ok m0 from hm0, Int.toNat_natCast, h1, show w1.evo.eng.mps.position O 0 = .ok m1 from hm1]
  refine ⟨_, _, rfl, sh1.trans (h4.trans sh0), fun c hc => ?_⟩
  obtain ⟨cs, hcs, hc⟩ := List.mem_flatten.mp hc
  have := (h5 cs hcs).resolve_left (by simp) c hc
  simpa only [sh0] using this

/-! ## C70 -/

/-- **C70.** `initializeTDVP` leaves the represented state alone and brings the engine, whatever its caches were before,
into a state from which TDVP may be started. -/
theorem C70_initializeTDVP (hO : O.Spec) {e e' : Evo} (h : e.initializeTDVP O = .ok e')
    (hw : e.eng.mps.WF e.eng.lb.u e.eng.rb.u) (hs : e.eng.mps.sth < 1e-15) (hN : 2 ≤ e.eng.mps.N)
    (hW : e.eng.mpo.length = e.eng.mps.N) :
    e'.eng.TStart ∧ e'.eng.Val e'.eng.mps.N 0 ∧ e'.eng.mps.pos = 0 ∧ e'.eng.mps.ds = e.eng.mps.ds ∧ e'.eng.mpo = e.eng.mpo ∧
    e'.eng.lb = e.eng.lb ∧ e'.eng.rb = e.eng.rb ∧ e'.it = e.it ∧ e'.t0 = e.t0 ∧ e'.filename = e.filename ∧
    (∀ s, Conf e.eng.mps.ds s → ∀ i < e.eng.lb.u, ∀ j, e'.eng.mps.amp s i j = e.eng.mps.amp s i j) ∧
    (PosC e.eng.mps.Z → PosC e'.eng.mps.Z) ∧ (e.eng.mps.Canonical → e'.eng.mps.Canonical) := by
  unfold Evo.initializeTDVP at h
  split at h
  · cases h
  rename_i m hm
  split at h
  · cases h
  rename_i L hL
  split at h
  · cases h
  rename_i R hR
  simp only [Except.ok.injEq] at h
  subst h
  obtain ⟨-, -, M⟩ := position_moved hO (effSth_default hs) hw hm
  obtain ⟨z, hz, hZ⟩ := position_Z hO (effSth_default hs) hm
  rw [Int.toNat_zero] at M
  have hv : ({ e.eng with mps := m, L := e.eng.lb :: L, R := e.eng.rb :: R } : Eng).Val m.N 0 :=
    val_of_get M.wf.len (by rw [M.N]; exact hW) hL hR
  refine ⟨⟨M.wf, by simp only [M.sth]; exact hs, by simp only [M.pos]; omega, by simp only [M.N]; exact hN,
    hv.mono (Nat.zero_le _) (Nat.zero_le _)⟩, hv, M.pos, M.ds, rfl, rfl, rfl, rfl, rfl, rfl, ?_, ?_, ?_⟩
  · exact fun s hs i hi j => M.amp s (conf_cfg hs) i hi j
  · intro hp
    simp only [hZ]
    exact hp.mul ⟨z, hz, rfl⟩
  · intro hc
    have ho := orth_moved (e := e.eng) ⟨hc.left, hc.right⟩ M
    refine ⟨fun x t hx hl => ho.left x t hx (by simp only [M.pos] at hl; exact hl), fun x t hx hl => ho.right x t hx (Nat.zero_le _), ?_⟩
    by_cases h0 : (0 : ℕ) = e.eng.mps.pos
    · have : m = e.eng.mps := position_stay h0.symm hm
      simp only [this]; exact hc.norm
    · exact M.norm h0

/-- **C70.** `initializeTDVP` succeeds on a consistent, nonzero state with a fitting MPO. -/
theorem C70_progress (hO : O.Spec) {e : Evo} (hw : e.eng.mps.WF e.eng.lb.u e.eng.rb.u) (hsq : e.eng.mps.mat.r = e.eng.mps.mat.c)
    (hs : e.eng.mps.sth < 1e-15) (hN : 0 < e.eng.mps.N) (hf : e.eng.Fit) (had : ∀ t ∈ e.eng.mps.tensors, t.Adm)
    (hne : ∃ s i j, Cfg e.eng.mps.tensors s ∧ i < e.eng.lb.u ∧ e.eng.mps.amp s i j ≠ 0) :
    ∃ e', e.initializeTDVP O = .ok e' := by
  obtain ⟨m1, hm1⟩ := position_ok (b := 0) hO hw hs hne (by omega)
  obtain ⟨-, -, M⟩ := position_moved hO (effSth_default hs) hw hm1
  obtain ⟨-, sq1⟩ := position_shape hO hs hm1 had hsq
  have hl1 := wf_link M.wf sq1
  have hfit : Fits m1.tensors e.eng.mpo m1.tensors :=
    fits_of_maps (by rw [hf.ins]; exact M.ds.symm) (by rw [hf.outs]; exact M.ds.symm)
  have hne1 : m1.tensors ≠ [] := by
    have : m1.tensors.length = e.eng.mps.N := by rw [M.wf.len, M.N]
    intro h0; rw [h0] at this; simp at this; omega
  obtain ⟨Ls, hLs⟩ := C30_getL_succeeds (lb := e.eng.lb) hne1 hl1 (hf.lb ▸ hl1) hf.mlink hfit
  obtain ⟨Rs, hRs⟩ := C30_getR_succeeds (rb := e.eng.rb) hne1 hl1 (hf.rb ▸ hl1) hf.mlink hfit
  unfold Evo.initializeTDVP
  simp only [show e.eng.mps.position O 0 = .ok m1 from hm1, hLs, hRs]
  exact ⟨_, rfl⟩

/-! ## Witness: three qubits in an entangled state, Hamiltonian 1 -/

/-- MPO tensor of the identity. -/
def oneW : Mpo ℂ := ⟨1, 1, 2, 2, fun _ _ s s' => if s = s' then 1 else 0⟩

/-- Exact flow for the Hamiltonian 1. -/
def oneT : EvolveTen := fun _ _ _ _ T t => .ok { T with v := fun i j s => Complex.exp t * T.v i j s }

/-- Exact flow for the Hamiltonian 1, bond problem. -/
def oneM : EvolveMat := fun _ _ _ C t => .ok { C with v := fun i j => Complex.exp t * C.v i j }

theorem oneT_shape : oneT.Shape := by
  intro sv L W R T t X h
  simp only [oneT, Except.ok.injEq] at h
  subst h; exact ⟨rfl, rfl, rfl⟩

theorem oneM_shape : oneM.Shape := by
  intro sv L R C t X h
  simp only [oneM, Except.ok.injEq] at h
  subst h; exact ⟨rfl, rfl⟩

theorem oneT_live (sv : TSolver) : oneT.Live sv fun _ => True := by
  intro n m L W R T t _ _ _ _ _ _ _ _ h _
  obtain ⟨i, hi, j, hj, s, hs, h⟩ := h
  exact ⟨_, rfl, i, hi, j, hj, s, hs, mul_ne_zero (Complex.exp_ne_zero _) h⟩

theorem oneM_live (sv : TSolver) : oneM.Live sv fun _ => True := by
  intro n m L R C t _ _ _ _ _ _ h _
  refine ⟨_, rfl, fun h0 => h ?_⟩
  rw [normF_eq_zero] at h0 ⊢
  intro i hi j hj
  exact (mul_eq_zero.mp (h0 i hi j hj)).resolve_left (Complex.exp_ne_zero _)

/-- Evolution engine on a state, before `initializeTDVP`. -/
def tevoOf (W : Mpo ℂ) (m : MPS) (file : String) : Evo := ⟨⟨m, [W, W, W], oneEnv, oneEnv, [], []⟩, 0, 0, 0, 0, file, []⟩

/-- The witness: `initializeTDVP` succeeds, and the resulting engine meets all hypotheses. -/
theorem tdvp_start_witness (hO : O.Spec) {W : Mpo ℂ} (hW : W.l = 1 ∧ W.r = 1 ∧ W.din = 2 ∧ W.dout = 2) : ∃ e m : Evo, m.eng.mps.pos = 0 ∧ m.initializeTDVP O = .ok e ∧ e.eng.TStart ∧ e.eng.Fit ∧
    e.eng.mps.Canonical ∧ PosC e.eng.mps.Z ∧ e.eng.mps.N = 3 ∧ e.eng.lb.u = 1 ∧ e.eng.mps.ds = [2, 2, 2] ∧
    (∀ s, Conf [2, 2, 2] s → e.eng.mps.amp s 0 0 = ghz.amp s 0 0) ∧ e.it = 0 ∧ e.t0 = 0 ∧ e.filename = "run" ∧
    e.eng.mpo = [W, W, W] ∧ e.eng.lb = oneEnv ∧ e.eng.rb = oneEnv ∧
    e.eng.mps.tensors.map Ten.shape = ghz.tensors.map Ten.shape ∧ (∀ t ∈ e.eng.mps.tensors, t.Adm) ∧ e.eng.mps.mat.r = e.eng.mps.mat.c := by
  obtain ⟨m, hm, hg, hp, ha⟩ := ghz_good hO
  have hadm : ∀ t ∈ ghz.tensors, t.Adm := by
    simp [ghz, ghzT, Ten.Adm]
  obtain ⟨sh, sq⟩ := position_shape hO (by norm_num [ghz]) hm hadm rfl
  have hN : m.N = 3 := hg.N
  have hf : (tevoOf W m "run").eng.Fit := by
    refine ⟨rfl, rfl, by simp [tevoOf, MLinked, hW, oneEnv], ?_, ?_⟩ <;>
      simp [tevoOf, hW, hg.ds_eq]
  obtain ⟨s, i, j, a1, a2, -, a3⟩ := canonical_amp hg.toFit hg.can
  obtain ⟨e, he⟩ := C70_progress hO (e := tevoOf W m "run") hg.wf sq hg.sth (by simp only [tevoOf]; omega) hf (adm_shape sh hadm)
    ⟨s, i, j, conf_cfg (by rw [show (tevoOf W m "run").eng.mps = m from rfl, hg.ds_eq]; exact a1), a2, a3⟩
  obtain ⟨b1, b2, b3, b4, b5, b6, b7, b8, b9, b10, b11, b12, b13⟩ := C70_initializeTDVP hO he hg.wf hg.sth
    (by simp only [tevoOf]; omega) (by simp only [tevoOf]; exact hN.symm)
  have hf' : e.eng.Fit := ⟨by rw [b6]; rfl, by rw [b7]; rfl, by rw [b5, b6, b7]; exact hf.mlink, by rw [b5, b4]; exact hf.ins,
    by rw [b5, b4]; exact hf.outs⟩
  have hc := b13 hg.can
  have hZ := b12 hp
  have hpos : (tevoOf W m "run").eng.mps.pos = 0 := by
    obtain ⟨-, -, M⟩ := position_moved hO (effSth_default (by norm_num [ghz])) ghz_wf hm
    exact M.pos
  have hds : e.eng.mps.ds = [2, 2, 2] := b4.trans hg.ds_eq
  obtain ⟨sh2, sq2⟩ : e.eng.mps.tensors.map Ten.shape = m.tensors.map Ten.shape ∧ e.eng.mps.mat.r = e.eng.mps.mat.c := by
    unfold Evo.initializeTDVP at he
    split at he
    · cases he
    rename_i m1 hm1
    split at he
    · cases he
    split at he
    · cases he
    simp only [Except.ok.injEq] at he
    rw [← he]
    exact position_shape hO hg.sth hm1 (adm_shape sh hadm) sq
  refine ⟨e, _, hpos, he, b1, hf', hc, hZ, ?_, by rw [b6]; rfl, hds, ?_, b8, b9, b10, b5, b6, b7, sh2.trans sh,
    adm_shape (sh2.trans sh) hadm, sq2⟩
  · rw [← b1.wf.len, ← List.length_map (f := Ten.d), ← MPS.ds, hds]; rfl
  · intro s hs
    rw [b11 s (by rw [show (tevoOf W m "run").eng.mps.ds = [2, 2, 2] from hg.ds_eq]; exact hs) 0 (by simp [tevoOf, oneEnv])]
    exact ha s hs

/-- The witness: `initializeTDVP` succeeds and TDVP runs with every number of steps and every checkpointing. -/
theorem tdvp_witness (hO : O.Spec) : ∃ e m : Evo, m.eng.mps.pos = 0 ∧ m.initializeTDVP O = .ok e ∧ e.eng.TStart ∧ e.eng.Fit ∧
    e.eng.mps.Canonical ∧ PosC e.eng.mps.Z ∧ e.eng.mps.N = 3 ∧ e.eng.lb.u = 1 ∧ e.eng.mps.ds = [2, 2, 2] ∧
    (∀ s, Conf [2, 2, 2] s → e.eng.mps.amp s 0 0 = ghz.amp s 0 0) ∧ e.it = 0 ∧ e.t0 = 0 ∧ e.filename = "run" ∧
    ∀ sv, sv ≠ .other → ∀ (dt : ℂ) (n : ℕ) (cp : Option ℤ), cp ≠ some 0 → ∀ (keep : Bool) (v : ℤ) (d : Disk),
      ∃ w css, doTDVP O oneT oneM sv dt n cp keep v ⟨e, d⟩ = .ok (w, css) := by
  obtain ⟨e, m, h1, h2, h3, h4, h5, h6, h7, h8, h9, h10, h11, h12, h13, -, -, -, -, h14, h15⟩ := tdvp_start_witness hO (W := oneW) ⟨rfl, rfl, rfl, rfl⟩
  refine ⟨e, m, h1, h2, h3, h4, h5, h6, h7, h8, h9, h10, h11, h12, h13, ?_⟩
  intro sv hsv dt n cp hcp keep v d
  obtain ⟨w, css, h, -⟩ := C39_progress hO oneT_shape oneM_shape (oneT_live sv) (oneM_live sv) hsv dt n hcp keep v (w := ⟨e, d⟩) h3 h4 h5
    h6.ne h14 h15 (fun _ _ _ _ _ => trivial)
  exact ⟨w, css, h⟩

/-- Four steps with the Krylov integrators on three qubits. -/
example : ∃ (O : LinAlg) (w w' : World) (css : List (List TCall)), O.Spec ∧ w.evo.eng.TStart ∧ PosC w.evo.eng.mps.Z ∧
    doTDVP O oneT oneM .LAN (Complex.I / 10) (4 : ℕ) none false 1 w = .ok (w', css) ∧ css.length = 4 ∧
    (∀ cs ∈ css, cs.map TCall.evt = stepEvts (Complex.I / 10) 3) ∧ siteTime 1 (css.flatten.map TCall.evt) = 4 * (Complex.I / 10) := by
  obtain ⟨O, hO⟩ := exists_linAlg
  obtain ⟨e, m, -, -, h1, h2, h3, h4, hN, -, -, -, -, -, -, h5⟩ := tdvp_witness hO
  obtain ⟨w, css, h6⟩ := h5 .LAN (by simp) (Complex.I / 10) 4 none (by simp) false 1 (fun _ => none)
  have a := C39_schedule hO oneT_shape oneM_shape h1 h4 h6
  have b := C39_symmetric hO oneT_shape oneM_shape h1 h4 h6
  refine ⟨O, _, w, css, hO, h1, h4, h6, a.1, fun cs hcs => ?_, ?_⟩
  · rw [(a.2.1 cs hcs).1, hN]
  · have := b.2.1 1 (by simp only [hN]; omega)
    rw [this]; norm_num

/-- A run to which `C39_ivp_real_step_violated` applies. -/
example : ∃ (O : LinAlg) (w w' : World) (css : List (List TCall)), O.Spec ∧ w.evo.eng.TStart ∧ PosC w.evo.eng.mps.Z ∧
    (∀ L W R T, oneT .ivp L W R T 0 = .ok T) ∧ (∀ L R C, oneM .ivp L R C 0 = .ok C) ∧
    doTDVP O oneT oneM .ivp 1 (7 : ℕ) none false 1 w = .ok (w', css) := by
  obtain ⟨O, hO⟩ := exists_linAlg
  obtain ⟨e, m, -, -, h1, h2, h3, h4, hN, -, -, -, -, -, -, h5⟩ := tdvp_witness hO
  obtain ⟨w, css, h6⟩ := h5 .ivp (by simp) 1 7 none (by simp) false 1 (fun _ => none)
  exact ⟨O, _, w, css, hO, h1, h4, by simp [oneT], by simp [oneM], h6⟩

/-! ## C37 -/

/-- **C37** for TDVP (partial: only for `verbose ≥ 1`).  A run of `n` steps advances the iteration counter by `n` and the time
by `n*|Im dt|`. -/
theorem C37_tdvp_time_partial {dt : ℂ} {n : ℕ} {cp : Option ℤ} {keep : Bool} {v : ℤ} {w w' : World} {css : List (List TCall)}
    (hv : 1 ≤ v) (h : doTDVP O evT evM sv dt n cp keep v w = .ok (w', css)) :
    w'.evo.it = w.evo.it + n ∧ w'.evo.t0 = w.evo.t0 + n * |dt.im| := by
  obtain ⟨-, m0, e1, m1, -, -, -, -, h1, h2, -⟩ := doTDVP_spec h
  rw [tickBy, if_pos hv] at h2
  exact ⟨h1, h2⟩

/-- **C37 is violated** for TDVP with `verbose ≤ 0`: the time stands still. -/
theorem C37_tdvp_silent {dt : ℂ} {n : ℕ} {cp : Option ℤ} {keep : Bool} {v : ℤ} {w w' : World} {css : List (List TCall)}
    (hv : v ≤ 0) (h : doTDVP O evT evM sv dt n cp keep v w = .ok (w', css)) :
    w'.evo.it = w.evo.it + n ∧ w'.evo.t0 = w.evo.t0 := by
  obtain ⟨-, m0, e1, m1, -, -, -, -, h1, h2, -⟩ := doTDVP_spec h
  rw [tickBy, if_neg (by omega)] at h2
  exact ⟨h1, by rw [h2]; simp⟩

/-- **C37 is violated**: two TDVP runs that differ in `verbose` only evolve equally many steps but end at different times. -/
theorem C37_tdvp_verbose_violated : ∃ (O : LinAlg) (e : Evo) (w w' : World) (cs cs' : List (List TCall)), O.Spec ∧ e.eng.TStart ∧
    doTDVP O oneT oneM .LAN Complex.I 5 none false 1 ⟨e, fun _ => none⟩ = .ok (w, cs) ∧
    doTDVP O oneT oneM .LAN Complex.I 5 none false 0 ⟨e, fun _ => none⟩ = .ok (w', cs') ∧
    w.evo.it = 5 ∧ w'.evo.it = 5 ∧ w.evo.t0 = 5 ∧ w'.evo.t0 = 0 := by
  obtain ⟨O, hO⟩ := exists_linAlg
  obtain ⟨e, m, -, -, h1, h2, h3, h4, hN, -, -, -, hit, ht, -, h5⟩ := tdvp_witness hO
  obtain ⟨w, cs, h6⟩ := h5 .LAN (by simp) Complex.I 5 none (by simp) false 1 (fun _ => none)
  obtain ⟨w', cs', h7⟩ := h5 .LAN (by simp) Complex.I 5 none (by simp) false 0 (fun _ => none)
  have a := C37_tdvp_time_partial le_rfl h6
  have b := C37_tdvp_silent le_rfl h7
  simp only [hit, ht] at a b
  refine ⟨O, e, w, w', cs, cs', hO, h1, h6, h7, a.1, b.1, ?_, b.2⟩
  rw [a.2]; simp

/-! ## C38 -/

/-- **C38** for TDVP with `keep_cp=True`: every checkpoint written stays, every other file is left alone. -/
theorem C38_tdvp_keep {dt : ℂ} {n : ℕ} {cp : Option ℤ} {v : ℤ} {w w' : World} {css : List (List TCall)}
    (h : doTDVP O evT evM sv dt n cp true v w = .ok (w', css)) :
    (∀ i, w.evo.it ≤ i → i < w.evo.it + n → cpAt cp i = true → ∃ s, s.it = i ∧
      w'.disk (cpFile w.evo.filename "_tdvp_cp" i) = some (.pickle s)) ∧
    ∀ f, (∀ i, w.evo.it ≤ i → i < w.evo.it + n → cpAt cp i = true → f ≠ cpFile w.evo.filename "_tdvp_cp" i) →
      w'.disk f = w.disk f := by
  obtain ⟨-, m0, e1, m1, -, -, -, -, -, -, -, xs, h1, h2, h4⟩ := doTDVP_spec h
  have hnd := (List.nodup_cons.mp (its_nodup (file := w.evo.filename) (kind := "_tdvp_cp") (by decide) h2)).2
  constructor
  · intro i hi hi' hc
    obtain ⟨s, hs, rfl⟩ := (mem_its (i := i) h2).mpr ⟨hi, by omega, hc⟩
    refine ⟨s, rfl, ?_⟩
    rw [h4]
    exact retain_keep _ _ _ hnd _ (List.mem_map.mpr ⟨s, hs, rfl⟩)
  · intro f hf
    rw [h4, retain_other]
    · intro x hx
      obtain ⟨s, hs, rfl⟩ := List.mem_map.mp hx
      have h5 := (mem_its (i := s.it) h2).mp ⟨s, hs, rfl⟩
      exact hf _ h5.1 (by omega) h5.2.2
    · intro h; simp at h

/-- **C38** for TDVP with `keep_cp=False` (partial: a file `None.pickle` of the user is not protected, see
`C38_tdvp_violated`).  Only the latest checkpoint remains, also if the last step is a checkpoint step; other files are left
alone. -/
theorem C38_tdvp_latest_partial {dt : ℂ} {n : ℕ} {cp : Option ℤ} {v : ℤ} {w w' : World} {css : List (List TCall)}
    (h : doTDVP O evT evM sv dt n cp false v w = .ok (w', css)) :
    (∀ i, w.evo.it ≤ i → i < w.evo.it + n → cpAt cp i = true →
      (∀ j, i < j → j < w.evo.it + n → cpAt cp j = false) →
      ∃ s, s.it = i ∧ w'.disk (cpFile w.evo.filename "_tdvp_cp" i) = some (.pickle s)) ∧
    (∀ i j, w.evo.it ≤ i → i < j → j < w.evo.it + n → cpAt cp i = true → cpAt cp j = true →
      w'.disk (cpFile w.evo.filename "_tdvp_cp" i) = none) ∧
    ∀ f, f ≠ "None.pickle" → (∀ i, w.evo.it ≤ i → i < w.evo.it + n → cpAt cp i = true →
      f ≠ cpFile w.evo.filename "_tdvp_cp" i) → w'.disk f = w.disk f := by
  obtain ⟨-, m0, e1, m1, -, -, -, -, -, -, -, xs, h1, h2, h4⟩ := doTDVP_spec h
  have hnd := its_nodup (file := w.evo.filename) (kind := "_tdvp_cp") (by decide) h2
  have hsort : (xs.map Evo.it).Pairwise (· < ·) := by rw [h2]; exact (List.pairwise_lt_range').filter _
  refine ⟨?_, ?_, ?_⟩
  · intro i hi hi' hc hmax
    obtain ⟨s, hs, rfl⟩ := (mem_its (i := i) h2).mpr ⟨hi, hi', hc⟩
    obtain ⟨ys, y, rfl⟩ : ∃ ys y, xs = ys ++ [y] := by
      rcases List.eq_nil_or_concat xs with h5 | ⟨ys, y, h5⟩
      · subst h5; simp at hs
      · exact ⟨ys, y, by rw [h5, List.concat_eq_append]⟩
    have hy : y = s := by
      rcases List.mem_append.mp hs with h5 | h5
      · exfalso
        rw [List.map_append, List.pairwise_append] at hsort
        have h6 := hsort.2.2 s.it (List.mem_map.mpr ⟨s, h5, rfl⟩) y.it (by simp)
        have h7 := (mem_its (i := y.it) h2).mp ⟨y, by simp, rfl⟩
        have h8 := hmax y.it h6 (by omega)
        rw [h7.2.2] at h8; cases h8
      · exact (List.mem_singleton.mp h5).symm
    subst hy
    refine ⟨y, rfl, ?_⟩
    rw [h4, List.map_append]
    exact retain_last _ _ _
  · intro i j hi hij hj hci hcj
    obtain ⟨s, hs, rfl⟩ := (mem_its (i := i) h2).mpr ⟨hi, by omega, hci⟩
    obtain ⟨t, ht, rfl⟩ := (mem_its (i := j) h2).mpr ⟨by omega, hj, hcj⟩
    obtain ⟨ys, y, rfl⟩ : ∃ ys y, xs = ys ++ [y] := by
      rcases List.eq_nil_or_concat xs with h5 | ⟨ys, y, h5⟩
      · subst h5; simp at hs
      · exact ⟨ys, y, by rw [h5, List.concat_eq_append]⟩
    have hsy : s ∈ ys := by
      rcases List.mem_append.mp hs with h5 | h5
      · exact h5
      · exfalso
        rw [List.mem_singleton] at h5; subst h5
        rw [List.map_append, List.pairwise_append] at hsort
        rcases List.mem_append.mp ht with h6 | h6
        · have := hsort.2.2 t.it (List.mem_map.mpr ⟨t, h6, rfl⟩) s.it (by simp)
          omega
        · rw [List.mem_singleton] at h6; subst h6; omega
    rw [h4]
    rw [List.map_append] at hnd ⊢
    exact retain_old _ _ _ hnd (by
      refine List.mem_cons_of_mem _ ?_
      rw [List.map_map]
      exact List.mem_map.mpr ⟨s, hsy, rfl⟩)
  · intro f hf0 hf
    rw [h4, retain_other]
    · intro x hx
      obtain ⟨s, hs, rfl⟩ := List.mem_map.mp hx
      have h5 := (mem_its (i := s.it) h2).mp ⟨s, hs, rfl⟩
      exact hf _ h5.1 (by omega) h5.2.2
    · intro _ _; exact hf0

example : ∃ (O : LinAlg) (e : Evo) (w : World) (css : List (List TCall)), O.Spec ∧ e.eng.TStart ∧
    doTDVP O oneT oneM .LAN Complex.I ((7 : ℕ) : ℤ) (some 3) false 1 ⟨e, fun _ => none⟩ = .ok (w, css) ∧
    (∃ s, s.it = 6 ∧ w.disk (cpFile "run" "_tdvp_cp" 6) = some (.pickle s)) ∧
    w.disk (cpFile "run" "_tdvp_cp" 3) = none := by
  obtain ⟨O, hO⟩ := exists_linAlg
  obtain ⟨e, m, -, -, h1, h2, h3, h4, hN, -, -, -, hit, ht, hfn, h5⟩ := tdvp_witness hO
  obtain ⟨w, cs, h6⟩ := h5 .LAN (by simp) Complex.I 7 (some 3) (by simp) false 1 (fun _ => none)
  obtain ⟨a, b, -⟩ := C38_tdvp_latest_partial h6
  simp only [hit, hfn] at a b
  exact ⟨O, e, w, cs, hO, h1, h6, a 6 (by omega) (by omega) (by decide) (fun j hj hj' => by omega), b 3 6 (by omega) (by omega) (by omega)
    (by decide) (by decide)⟩

/-- **C38 is violated** for TDVP with `keep_cp=False`: a file `None.pickle` that the user had before the run is deleted with
the first checkpoint. -/
theorem C38_tdvp_violated : ∃ (O : LinAlg) (e : Evo) (d : Disk) (w : World) (css : List (List TCall)), O.Spec ∧ e.eng.TStart ∧
    d "None.pickle" = some (.other 7) ∧
    doTDVP O oneT oneM .LAN Complex.I 3 (some 2) false 1 ⟨e, d⟩ = .ok (w, css) ∧ w.disk "None.pickle" = none := by
  obtain ⟨O, hO⟩ := exists_linAlg
  obtain ⟨e, m, -, -, h1, h2, h3, h4, hN, -, -, -, hit, ht, hfn, h5⟩ := tdvp_witness hO
  let d : Disk := fun f => if f = "None.pickle" then some (.other 7) else none
  obtain ⟨w, cs, h6⟩ := h5 .LAN (by simp) Complex.I 3 (some 2) (by simp) false 1 d
  obtain ⟨-, m0, e1, m1, -, -, -, -, -, -, -, xs, b1, b2, b4⟩ := doTDVP_spec h6
  simp only [hit, hfn] at b2 b4
  have e1 : xs.map Evo.it = [2] := by rw [b2]; decide
  obtain ⟨x, rfl⟩ : ∃ x, xs = [x] := List.length_eq_one_iff.mp (by rw [← List.length_map (f := Evo.it), e1]; rfl)
  simp only [List.map_cons, List.map_nil, List.cons.injEq, and_true] at e1
  simp only [List.map_cons, List.map_nil, retain, e1] at b4
  refine ⟨O, e, d, w, cs, hO, h1, by simp [d], h6, ?_⟩
  have n1 : "None.pickle" ≠ cpName "run" "_tdvp_cp" 2 ++ ".pickle" := by decide
  rw [b4, save_apply, if_neg n1]
  simp [removeIf_apply]

/-! ## C68 -/

theorem tdvpIter_split {dt : ℂ} : ∀ (a b : ℕ) {e e1 e2 : Eng} {c1 c : List (List TCall)},
    tdvpIter O evT evM sv dt (a + b) e = .ok (e2, c) → tdvpIter O evT evM sv dt a e = .ok (e1, c1) →
    tdvpIter O evT evM sv dt b e1 = .ok (e2, c.drop a) := by
  intro a
  induction a with
  | zero =>
    intro b e e1 e2 c1 c h1 h2
    simp only [tdvpIter, Except.ok.injEq, Prod.mk.injEq] at h2
    obtain ⟨rfl, rfl⟩ := h2
    simpa using h1
  | succ a ih =>
    intro b e e1 e2 c1 c h1 h2
    rw [show a + 1 + b = (a + b) + 1 by omega, tdvpIter] at h1
    rw [tdvpIter] at h2
    split at h1
    · cases h1
    rename_i e3 c3 hc
    rw [hc] at h2
    simp only at h2
    split at h1
    · cases h1
    rename_i e4 cs hcs
    split at h2
    · cases h2
    rename_i e5 cs5 hcs5
    simp only [Except.ok.injEq, Prod.mk.injEq] at h1 h2
    obtain ⟨rfl, rfl⟩ := h1
    obtain ⟨rfl, rfl⟩ := h2
    exact ih b hcs hcs5

theorem tdvpLoop_of_iter {dt : ℂ} {v : ℤ} {cp : Option ℤ} (hcp : cp ≠ some 0) {keep : Bool} :
    ∀ (k : ℕ) (cur : String) (w : World) (acc : List (List TCall)) {e' : Eng} {cs : List (List TCall)},
    tdvpIter O evT evM sv dt k w.evo.eng = .ok (e', cs) →
    ∃ w', tdvpLoop O evT evM sv dt v cp keep k cur w acc = .ok (w', acc ++ cs) ∧ w'.evo.eng = e' := by
  intro k
  induction k with
  | zero =>
    intro cur w acc e' cs h
    simp only [tdvpIter, Except.ok.injEq, Prod.mk.injEq] at h
    obtain ⟨rfl, rfl⟩ := h
    exact ⟨w, by simp [tdvpLoop], rfl⟩
  | succ k ih =>
    intro cur w acc e' cs h
    rw [tdvpIter] at h
    split at h
    · cases h
    rename_i e1 c h1
    split at h
    · cases h
    rename_i e2 cs' h2
    simp only [Except.ok.injEq, Prod.mk.injEq] at h
    obtain ⟨rfl, rfl⟩ := h
    have hst : ∃ cur' w', tdvpStep O evT evM sv dt v cp keep cur w = .ok (cur', w', c) := by
      have h1' := h1
      unfold tdvpSweeps at h1'
      split at h1'
      · cases h1'
      rename_i e3 c3 g1
      unfold tdvpStep
      simp only [g1, h1']
      obtain ⟨b, hb⟩ := cpDue_isOk hcp (Evo.tick v dt { w.evo with eng := e1 }).it
      rw [hb]
      cases b
      · exact ⟨_, _, rfl⟩
      · exact ⟨_, _, rfl⟩
    obtain ⟨cur', w1, hw⟩ := hst
    obtain ⟨g1, -⟩ := tdvpStep_spec hw
    rw [h1] at g1
    simp only [Except.ok.injEq, Prod.mk.injEq] at g1
    obtain ⟨w', h3, h4⟩ := ih cur' w1 (acc ++ [c]) (g1.1 ▸ h2)
    refine ⟨w', ?_, h4⟩
    rw [tdvpLoop, hw]
    simp only [h3]
    simp

theorem position_at {m : MPS} {b : ℕ} (hb : m.pos = b) (hN : b ≤ m.N) : m.position O b = .ok m := by
  unfold MPS.position
  simp only
  split_ifs <;> first | rfl | omega

/-- **C68** for TDVP.  Whatever new engine a run leaves on disk is the engine on a step boundary: its file name carries its
iteration, its simulated time counts the completed steps, and it is where the run continues: `initialise nothing, run the
remaining steps` from the stored engine leads to the final engine of the uninterrupted run (environments included). -/
theorem C68_tdvp_content (hO : O.Spec) (hT : evT.Shape) (hM : evM.Shape) {dt : ℂ} {n : ℕ} {cp : Option ℤ} {keep : Bool} {v : ℤ}
    {w w' : World} {css : List (List TCall)} (hst : w.evo.eng.TStart)
    (h : doTDVP O evT evM sv dt n cp keep v w = .ok (w', css)) {f : String} {s : Evo} (hs : w'.disk f = some (.pickle s))
    (hnew : w.disk f ≠ some (.pickle s)) :
    ∃ k : ℕ, s.it = w.evo.it + k ∧ k < n ∧ cpAt cp s.it = true ∧ f = cpFile w.evo.filename "_tdvp_cp" s.it ∧
      s.t0 = w.evo.t0 + (k + 1 : ℕ) * tickBy v dt ∧ s.eng.TStart ∧
      ∀ (cp' : Option ℤ), cp' ≠ some 0 → ∀ (keep' : Bool) (v' : ℤ) (d : Disk), ∃ w2 css2,
        doTDVP O evT evM sv dt ((n - (k + 1) : ℕ) : ℤ) cp' keep' v' ⟨s, d⟩ = .ok (w2, css2) ∧ w2.evo.eng = w'.evo.eng ∧
        css.drop (k + 1) = css2 := by
  obtain ⟨hsv, m0, e1, m1, hm0, hit, hm1, he, -, -, -, xs, h1, h2, h4⟩ := doTDVP_spec h
  obtain ⟨hr, hsame, -, -⟩ := tdvp_start hO hst hm0
  have hN : 2 ≤ ({ w.evo.eng with mps := m0 } : Eng).mps.N := by rw [hsame.same.N]; exact hst.two
  have key : s ∈ xs ∧ f = cpFile w.evo.filename "_tdvp_cp" s.it := by
    rw [h4] at hs
    rcases mem_retain _ _ _ hs with h6 | ⟨p, hp, h6, h7⟩
    · exact absurd h6 hnew
    · obtain ⟨t, ht, rfl⟩ := List.mem_map.mp hp
      simp only [File.pickle.injEq] at h7
      subst h7
      exact ⟨ht, h6⟩
  obtain ⟨k1, k2⟩ := key
  have h8 := (mem_its (i := s.it) h2).mp ⟨s, k1, rfl⟩
  have hsn := h1 s k1
  obtain ⟨cs, hrun⟩ := hsn.run
  simp only at hrun
  have hle : w.evo.it ≤ s.it := h8.1
  obtain ⟨⟨a, b, hb, t1⟩, -, t3, -⟩ := tdvpIter_spec hO hT hM _ hr hN hrun
  have hts := hsame.trans t3
  have hstart : s.eng.TStart := ⟨t1.wf, t1.sth, by rw [t1.pos]; omega, by rw [hts.same.N]; exact hst.two,
    t1.val.mono (Nat.zero_le a) hb⟩
  refine ⟨s.it - w.evo.it, by omega, by omega, h8.2.2, k2, hsn.t0, hstart, fun cp' hcp' keep' v' d => ?_⟩
  rw [show n = (s.it - w.evo.it + 1) + (n - (s.it - w.evo.it + 1)) by omega] at hit
  have hrest := tdvpIter_split _ _ hit hrun
  have hp0 : s.eng.mps.position O 0 = .ok s.eng.mps := position_at t1.pos (Nat.zero_le _)
  obtain ⟨w2, g1, g2⟩ := tdvpLoop_of_iter (v := v') (keep := keep') hcp' _ "None" ⟨{ s with eng := { s.eng with mps := s.eng.mps } }, d⟩ [] hrest
  refine ⟨⟨{ w2.evo with eng := { w2.evo.eng with mps := m1.resetZ } }, w2.disk⟩, css.drop (s.it - w.evo.it + 1), ?_, ?_, rfl⟩
  · unfold doTDVP
    rw [if_neg hsv]
    simp only [hp0, Int.toNat_natCast, g1, g2, hm1, List.nil_append]
  · simp only [g2, he]

example : ∃ (O : LinAlg) (e s : Evo) (w : World) (css : List (List TCall)), O.Spec ∧ e.eng.TStart ∧
    doTDVP O oneT oneM .LAN Complex.I ((7 : ℕ) : ℤ) (some 3) true 1 ⟨e, fun _ => none⟩ = .ok (w, css) ∧
    w.disk (cpFile "run" "_tdvp_cp" 3) = some (.pickle s) := by
  obtain ⟨O, hO⟩ := exists_linAlg
  obtain ⟨e, m, -, -, h1, h2, h3, h4, hN, -, -, -, hit, ht, hfn, h5⟩ := tdvp_witness hO
  obtain ⟨w, cs, h6⟩ := h5 .LAN (by simp) Complex.I 7 (some 3) (by simp) true 1 (fun _ => none)
  obtain ⟨a, -⟩ := C38_tdvp_keep h6
  simp only [hit, hfn] at a
  obtain ⟨s, -, hs⟩ := a 3 (by omega) (by omega) (by decide)
  exact ⟨O, e, s, w, cs, hO, h1, h6, hs⟩

/-- **C68 is violated** for the counters of TDVP checkpoints: the stored iteration counter is one less than the number of
steps behind the stored state and time. -/
theorem C68_tdvp_counter_violated : ∃ (O : LinAlg) (e s : Evo) (w : World) (css : List (List TCall)), O.Spec ∧ e.eng.TStart ∧
    doTDVP O oneT oneM .LAN Complex.I 3 (some 2) true 1 ⟨e, fun _ => none⟩ = .ok (w, css) ∧
    w.disk (cpFile "run" "_tdvp_cp" 2) = some (.pickle s) ∧ s.t0 = 3 ∧ s.it = 2 ∧ w.evo.t0 = 3 ∧ w.evo.it = 3 ∧
    ∃ w2 cs2, doTDVP O oneT oneM .LAN Complex.I 0 none true 1 ⟨s, fun _ => none⟩ = .ok (w2, cs2) ∧ w2.evo.eng = w.evo.eng ∧
      w2.evo.it = 2 := by
  obtain ⟨O, hO⟩ := exists_linAlg
  obtain ⟨e, m, -, -, h1, h2, h3, h4, hN, -, -, -, hit, ht, hfn, h5⟩ := tdvp_witness hO
  obtain ⟨w, cs, h6⟩ := h5 .LAN (by simp) Complex.I 3 (some 2) (by simp) true 1 (fun _ => none)
  obtain ⟨a, -⟩ := C38_tdvp_keep h6
  simp only [hit, hfn] at a
  obtain ⟨s, hsi, hs⟩ := a 2 (by omega) (by omega) (by decide)
  obtain ⟨k, b1, b2, -, -, b5, -, b6⟩ := C68_tdvp_content hO oneT_shape oneM_shape (w := ⟨e, fun _ => none⟩) h1 h6 hs (by simp)
  have hk : k = 2 := by simp only [hit] at b1; omega
  subst hk
  obtain ⟨w2, cs2, c1, c2, -⟩ := b6 none (by simp) true 1 (fun _ => none)
  have t := C37_tdvp_time_partial le_rfl h6
  have t2 := C37_tdvp_time_partial le_rfl c1
  simp only [hit, ht] at t b5
  refine ⟨O, e, s, w, cs, hO, h1, h6, hs, ?_, hsi, ?_, t.1, w2, cs2, c1, c2, ?_⟩
  · rw [b5]; simp [tickBy]
  · rw [t.2]; simp
  · rw [t2.1]; simp [hsi]

end

end PyTeN
