import Verif.Props.Ham
import Verif.Props.Tebd

/-! # Properties of the Hamiltonian constructors, continued (C40, C43–C46, C71–C75) -/

namespace PyTeN
open Finset

set_option linter.unusedSimpArgs false

noncomputable section

/-! ## C43: spinless fermions -/

/-- Nearest-neighbour data of the spinless-fermion chain. -/
def sfX (V t mu : List ℂ) (n : ℕ) : Loc := ⟨(fC.herm.dot fC).smul' (mu.getD n 0), sfA (V.getD n 0) (t.getD n 0), sfB⟩

theorem spinless_nn (V t mu : List ℂ) (hN : 2 ≤ mu.length) (hV : V.length = mu.length - 1)
    (ht : t.length = mu.length - 1) :
    ∃ Ws, spinless V t mu true = .ok Ws ∧ NNForm 2 3 mu.length Ws (sfX V t mu) := by
  have hs : ∀ (f : ℂ → ℂ → ℂ → Mpo ℂ) (n : ℕ), n < mu.length - 1 →
      (do let m ← getE mu n; let t ← getE t n; let V ← getE V n; return f V t m : Res (Mpo ℂ))
        = .ok (f (V.getD n 0) (t.getD n 0) (mu.getD n 0)) := by
    intro f n hn
    simp only [getE_getD (show n < mu.length by omega), getE_getD (show n < t.length by omega),
      getE_getD (show n < V.length by omega), bind, Except.bind, pure, Except.pure]
  refine ⟨_, ?_, nnForm_of (g := fun n => sfBulk (V.getD n 0) (t.getD n 0) (mu.getD n 0)) hN (sf_first _ _ _ _)
    (fun n _ _ => sf_bulk _ _ _) (sf_last _ _)⟩
  simp only [spinless, if_true]
  rw [if_pos (by constructor <;> omega)]
  refine openMpo_ok (hs sfFirst 0 (by omega)) (fun n _ hn => hs sfBulk n hn) ?_
  simp only [getE_getD (show mu.length - 1 < mu.length by omega), bind, Except.bind, pure, Except.pure]

/-- **C43.** `SpinlessFermions(interaction,hopping,chempot,obc=True)` represents
`Σ_n -hopping[n](a†_n a_{n+1} + h.c.) + interaction[n] n_n n_{n+1} + Σ_n chempot[n] n_n`, with fermionic signs. -/
theorem C43_spinless (V t mu : List ℂ) (hN : 2 ≤ mu.length) (hV : V.length = mu.length - 1)
    (ht : t.length = mu.length - 1) :
    ∃ Ws, spinless V t mu true = .ok Ws ∧ Represents 2 mu.length Ws (sfEl V t mu) := by
  obtain ⟨Ws, h1, h2⟩ := spinless_nn V t mu hN hV ht
  refine ⟨Ws, h1, h2.represents fun s u hs hu => ?_⟩
  simp only [hamEl, sfEl, sfX]
  rw [add_comm]
  congr 1
  · exact sum_congr rfl fun n hn => sf_at2 _ _ hs hu (by have := mem_range.mp hn; omega)
  · exact sum_congr rfl fun n hn => sf_at1 _ hs hu (by have := mem_range.mp hn; omega)

/-! ## C44: Hubbard -/

/-- Nearest-neighbour data of the Hubbard chain. -/
def hubX (U tU tD muU muD : List ℂ) (n : ℕ) : Loc :=
  ⟨hubLoc (U.getD n 0) (muU.getD n 0) (muD.getD n 0), hubA (tU.getD n 0) (tD.getD n 0), hubB⟩

theorem hubbard_nn (U tU tD muU muD : List ℂ) (hN : 2 ≤ U.length) (h1 : muU.length = U.length)
    (h2 : muD.length = U.length) (h3 : tU.length = U.length - 1) (h4 : tD.length = U.length - 1) :
    ∃ Ws, hubbard U tU tD muU muD true = .ok Ws ∧ NNForm 4 4 U.length Ws (hubX U tU tD muU muD) := by
  have hs : ∀ (f : ℂ → ℂ → ℂ → ℂ → ℂ → Mpo ℂ) (n : ℕ), n < U.length - 1 →
      (do let mu ← getE muU n; let md ← getE muD n; let u ← getE U n; let a ← getE tU n; let b ← getE tD n;
          return f u a b mu md : Res (Mpo ℂ))
        = .ok (f (U.getD n 0) (tU.getD n 0) (tD.getD n 0) (muU.getD n 0) (muD.getD n 0)) := by
    intro f n hn
    simp only [getE_getD (show n < muU.length by omega), getE_getD (show n < muD.length by omega),
      getE_getD (show n < U.length by omega), getE_getD (show n < tU.length by omega),
      getE_getD (show n < tD.length by omega), bind, Except.bind, pure, Except.pure]
  refine ⟨_, ?_, nnForm_of
    (g := fun n => hubBulk (U.getD n 0) (tU.getD n 0) (tD.getD n 0) (muU.getD n 0) (muD.getD n 0)) hN
    (hub_first _ _ _ _ _ _) (fun n _ _ => hub_bulk _ _ _ _ _) (hub_last _ _ _ _)⟩
  simp only [hubbard, if_true]
  rw [if_pos (by refine ⟨h1, h2, ?_, ?_⟩ <;> omega)]
  refine openMpo_ok (hs hubFirst 0 (by omega)) (fun n _ hn => hs hubBulk n hn) ?_
  simp only [getE_getD (show U.length - 1 < U.length by omega), getE_getD (show U.length - 1 < muU.length by omega),
    getE_getD (show U.length - 1 < muD.length by omega), bind, Except.bind, pure, Except.pure]

/-- **C44.** `HubbardChain(U,t_up,t_down,mu_up,mu_down,obc=True)` represents the Hubbard Hamiltonian
`Σ -t_σ[n](a†_{nσ} a_{n+1σ} + h.c.) + Σ mu_σ[n] n_{nσ} + U[n] n_{n↑} n_{n↓}`, with fermionic signs for the mode order
(down, up) on every site. -/
theorem C44_hubbard (U tU tD muU muD : List ℂ) (hN : 2 ≤ U.length) (h1 : muU.length = U.length)
    (h2 : muD.length = U.length) (h3 : tU.length = U.length - 1) (h4 : tD.length = U.length - 1) :
    ∃ Ws, hubbard U tU tD muU muD true = .ok Ws ∧
      Represents 4 U.length Ws (fun s t => hubEl U tU tD muU muD (bits s) (bits t)) := by
  obtain ⟨Ws, e1, e2⟩ := hubbard_nn U tU tD muU muD hN h1 h2 h3 h4
  refine ⟨Ws, e1, e2.represents fun s u hs hu => ?_⟩
  simp only [hamEl, hubEl, hubX]
  rw [add_comm]
  congr 1
  · exact sum_congr rfl fun n hn => hub_at2 _ _ hs hu (by have := mem_range.mp hn; omega)
  · exact sum_congr rfl fun n hn => hub_at1 _ _ _ hs hu (by have := mem_range.mp hn; omega)

/-! ## C71: JessHamiltonian -/

/-- A spin operator on the first (`sig`) or second (`tau`) qubit of a site. -/
def onHi (o : Mat ℂ) : Mat ℂ := ⟨4, 4, fun x y => if x % 2 = y % 2 then o.v (x / 2) (y / 2) else 0⟩
@[inherit_doc onHi] def onLo (o : Mat ℂ) : Mat ℂ := ⟨4, 4, fun x y => if x / 2 = y / 2 then o.v (x % 2) (y % 2) else 0⟩

/-- Pauli `y` and `z`. -/
def pY : Mat ℂ := ⟨2, 2, fun s t => if s = t then 0 else if s = 0 then -Complex.I else Complex.I⟩
@[inherit_doc pY] def pZ' : Mat ℂ := ⟨2, 2, fun s t => if s = t then (if s = 0 then 1 else -1) else 0⟩

/-- `Σ_n J_n (σ_n·σ_{n+1} + τ_n·τ_{n+1}) + Σ_n w_n(σx+τx) + chi_n σx τx`. -/
def jessEl (J w chi : List ℂ) (s t : List ℕ) : ℂ :=
  let N := chi.length
  ∑ n ∈ range (N - 1), J.getD n 0 *
      (opEl (at2 4 N n (onHi pX) (onHi pX)) s t + opEl (at2 4 N n (onHi pY) (onHi pY)) s t +
        opEl (at2 4 N n (onHi pZ') (onHi pZ')) s t + opEl (at2 4 N n (onLo pX) (onLo pX)) s t +
        opEl (at2 4 N n (onLo pY) (onLo pY)) s t + opEl (at2 4 N n (onLo pZ') (onLo pZ')) s t) +
    ∑ n ∈ range N, (w.getD n 0 * (opEl (at1 4 N n (onHi pX)) s t + opEl (at1 4 N n (onLo pX)) s t) +
      chi.getD n 0 * opEl (at1 4 N n ((onHi pX).dot (onLo pX))) s t)

/-- Nearest-neighbour data. -/
def jessX (J w chi : List ℂ) (n : ℕ) : Loc :=
  ⟨jessLoc (w.getD n 0) (chi.getD n 0), fun k => (jessOp k).smul' (J.getD n 0), jessOp⟩

theorem jess_nn (J w chi : List ℂ) (hN : 2 ≤ chi.length) (hJ : J.length = chi.length - 1) (hw : w.length = chi.length) :
    ∃ Ws, jess J w chi true = .ok Ws ∧ NNForm 4 6 chi.length Ws (jessX J w chi) := by
  have hs : ∀ (f : ℂ → ℂ → ℂ → Mpo ℂ) (n : ℕ), n < chi.length - 1 →
      (do let x ← getE w n; let c ← getE chi n; let j ← getE J n; return f j x c : Res (Mpo ℂ))
        = .ok (f (J.getD n 0) (w.getD n 0) (chi.getD n 0)) := by
    intro f n hn
    simp only [getE_getD (show n < chi.length by omega), getE_getD (show n < w.length by omega),
      getE_getD (show n < J.length by omega), bind, Except.bind, pure, Except.pure]
  refine ⟨_, ?_, nnForm_of (g := fun n => jessBulk (J.getD n 0) (w.getD n 0) (chi.getD n 0)) hN (jess_first _ _ _ _)
    (fun n _ _ => jess_bulk _ _ _) (jess_last _ _ _)⟩
  simp only [jess, if_true]
  rw [if_pos (by omega)]
  refine openMpo_ok (hs jessFirst 0 (by omega)) (fun n _ hn => hs jessBulk n hn) ?_
  simp only [lastE_getD (show chi ≠ [] by rintro rfl; simp at hN),
    lastE_getD (show w ≠ [] by rintro rfl; rw [← hw] at hN; simp at hN), hw, bind, Except.bind, pure, Except.pure]

theorem jessOp_hi {p q : Mat ℂ} (h : ∀ x < 2, ∀ y < 2, p.v x y = q.v x y) :
    ∀ x < 4, ∀ y < 4, (p.kron2 (eyeK ℂ 2)).v x y = (onHi q).v x y := by
  intro x hx y hy
  simp only [Mat.kron2, onHi, eyeK, delta]
  rw [h _ (by omega) _ (by omega)]; split_ifs <;> simp

theorem jessOp_lo {p q : Mat ℂ} (h : ∀ x < 2, ∀ y < 2, p.v x y = q.v x y) :
    ∀ x < 4, ∀ y < 4, ((eyeK ℂ 2).kron2 p).v x y = (onLo q).v x y := by
  intro x hx y hy
  simp only [Mat.kron2, onLo, eyeK, delta]
  rw [h _ (by omega) _ (by omega)]; split_ifs <;> simp

theorem jess_bond {p q : Mat ℂ} (h : ∀ x < 4, ∀ y < 4, p.v x y = q.v x y) (J : ℂ) {N n : ℕ} {s t : List ℕ}
    (hs : Cf 4 N s) (ht : Cf 4 N t) (hn : n + 2 ≤ N) :
    opEl (at2 4 N n (p.smul' J) p) s t = J * opEl (at2 4 N n q q) s t := by
  refine opEl_at2_smul hs ht hn fun x hx x' hx' y hy y' hy' => ?_
  simp only [Mat.smul', h x hx x' hx', h y hy y' hy']; ring

theorem opEl_at1_add {d N n : ℕ} (a b : Mat ℂ) {s t : List ℕ} (hs : Cf d N s) (ht : Cf d N t) (hn : n < N) :
    opEl (at1 d N n (a.add' b)) s t = opEl (at1 d N n a) s t + opEl (at1 d N n b) s t := by
  obtain ⟨p, w, q, rfl, hp, hw, hq⟩ := hs.split (show n + 1 ≤ N by omega)
  obtain ⟨p', w', q', rfl, hp', hw', hq'⟩ := ht.split (show n + 1 ≤ N by omega)
  obtain ⟨x, w, rfl, hx, hw⟩ := hw.exists_cons
  obtain rfl := hw.zero
  obtain ⟨x', w', rfl, hx', hw'⟩ := hw'.exists_cons
  obtain rfl := hw'.zero
  simp only [opEl_at1 (show n + 1 ≤ N by omega) hp.1 hp'.1 hq.1 hq'.1, Mat.add']; ring

theorem jess_ham (J w chi : List ℂ) {s t : List ℕ}
    (hs : Cf 4 chi.length s) (ht : Cf 4 chi.length t) :
    hamEl 4 6 chi.length (jessX J w chi) s t = jessEl J w chi s t := by
  have k0 : ∀ x < 4, ∀ y < 4, (jessOp 0).v x y = (onHi pX).v x y := jessOp_hi fun _ _ _ _ => rfl
  have k1 : ∀ x < 4, ∀ y < 4, (jessOp 1).v x y = (onHi pY).v x y := jessOp_hi fun _ _ _ _ => rfl
  have k2 : ∀ x < 4, ∀ y < 4, (jessOp 2).v x y = (onHi pZ').v x y := jessOp_hi fun _ _ _ _ => rfl
  have k3 : ∀ x < 4, ∀ y < 4, (jessOp 3).v x y = (onLo pX).v x y := jessOp_lo fun _ _ _ _ => rfl
  have k4 : ∀ x < 4, ∀ y < 4, (jessOp 4).v x y = (onLo pY).v x y := jessOp_lo fun _ _ _ _ => rfl
  have k5 : ∀ x < 4, ∀ y < 4, (jessOp 5).v x y = (onLo pZ').v x y := jessOp_lo fun _ _ _ _ => rfl
  have k6 : ∀ x < 4, ∀ y < 4, (pauliX.kron2 pauliX).v x y = ((onHi pX).dot (onLo pX)).v x y := by
    simp only [all4]; simp [Mat.kron2, pauliX, onHi, onLo, pX, Mat.dot, sum_range_succ]
  simp only [hamEl, jessEl, jessX]
  rw [add_comm]
  congr 1
  · refine sum_congr rfl fun n hn => ?_
    have hn' : n + 2 ≤ chi.length := by have := mem_range.mp hn; omega
    simp only [sum_range_succ, sum_range_zero, zero_add]
    rw [jess_bond k0 _ hs ht hn', jess_bond k1 _ hs ht hn', jess_bond k2 _ hs ht hn', jess_bond k3 _ hs ht hn',
      jess_bond k4 _ hs ht hn', jess_bond k5 _ hs ht hn']
    ring
  · refine sum_congr rfl fun n hn => ?_
    have hn' := mem_range.mp hn
    unfold jessLoc
    rw [opEl_at1_add _ _ hs ht hn',
      opEl_at1_smul (a := ((jessOp 0).add' (jessOp 3)).smul' (w.getD n 0)) (a' := (jessOp 0).add' (jessOp 3)) (c := w.getD n 0) hs ht hn' (fun _ _ _ _ => rfl),
      opEl_at1_smul (a := (pauliX.kron2 pauliX).smul' (chi.getD n 0)) (a' := (onHi pX).dot (onLo pX)) (c := chi.getD n 0) hs ht hn'
        (fun x hx x' hx' => by simp only [Mat.smul', k6 x hx x' hx']),
      opEl_at1_add _ _ hs ht hn',
      opEl_at1_smul (a := jessOp 0) (a' := onHi pX) (c := 1) hs ht hn' (fun x hx x' hx' => by rw [one_mul, k0 x hx x' hx']),
      opEl_at1_smul (a := jessOp 3) (a' := onLo pX) (c := 1) hs ht hn' (fun x hx x' hx' => by rw [one_mul, k3 x hx x' hx'])]
    ring

/-- **C71.** `JessHamiltonian(J,w,chi,obc=True)` represents two coupled Heisenberg chains in a transverse field. -/
theorem C71_jess (J w chi : List ℂ) (hN : 2 ≤ chi.length) (hJ : J.length = chi.length - 1) (hw : w.length = chi.length) :
    ∃ Ws, jess J w chi true = .ok Ws ∧ Represents 4 chi.length Ws (jessEl J w chi) := by
  obtain ⟨Ws, e1, h2⟩ := jess_nn J w chi hN hJ hw
  refine ⟨Ws, e1, h2.represents fun s t hs ht => jess_ham _ _ _ hs ht⟩

/-! ## C45: XXZflipped -/

/-- `Σ_n J_n (X_n X_{n+1} - Y_n Y_{n+1}) - Dz_n Z_n Z_{n+1}` on `N` sites. -/
def flipEl (N : ℕ) (J Dz : ℕ → ℂ) (s t : List ℕ) : ℂ :=
  ∑ n ∈ range (N - 1), (J n * (opEl (at2 2 N n pX pX) s t - opEl (at2 2 N n pY pY) s t) -
    Dz n * opEl (at2 2 N n pZ pZ) s t)

/-- Nearest-neighbour data. -/
def flipX (Delta J : List ℂ) (n : ℕ) : Loc :=
  ⟨opOf 2 fun _ _ => 0, flipA (J.getD 0 0) (Delta.getD n 0 * J.getD n 0), flipB⟩

theorem flip_nn (Delta J : List ℂ) (hN : 1 ≤ Delta.length) (hJ : Delta.length ≤ J.length) :
    ∃ Ws, xxzFlipped Delta J true .complex = .ok Ws ∧ NNForm 2 3 (Delta.length + 1) Ws (flipX Delta J) := by
  refine ⟨_, ?_, nnForm_of (g := fun n => flipBulk (J.getD 0 0) (Delta.getD n 0 * J.getD n 0)) (by omega)
    (flip_first _ _ _) (fun n _ _ => flip_bulk _ _) (flip_last _)⟩
  simp only [xxzFlipped, if_true, reduceCtorEq, if_false]
  refine openMpo_ok ?_ ?_ rfl
  · simp only [getE_getD (show 0 < Delta.length by omega), getE_getD (show 0 < J.length by omega), bind, Except.bind,
      pure, Except.pure, flipX]
  · intro n _ hn
    simp only [getE_getD (show 0 < J.length by omega), getE_getD (show n < Delta.length by omega),
      getE_getD (show n < J.length by omega), bind, Except.bind, pure, Except.pure]

theorem flip_ham (Delta J : List ℂ) {N : ℕ} {s t : List ℕ}
    (hs : Cf 2 N s) (ht : Cf 2 N t) :
    hamEl 2 3 N (flipX Delta J) s t = flipEl N (fun _ => J.getD 0 0) (fun n => Delta.getD n 0 * J.getD n 0) s t := by
  simp only [hamEl, flipEl, flipX]
  have hz : ∀ n ∈ range N, opEl (at1 2 N n (opOf 2 fun _ _ => 0)) s t = 0 := by
    intro n hn
    rw [opEl_at1_smul (a' := pX) (c := 0) hs ht (mem_range.mp hn) (by simp [opOf])]; simp
  rw [sum_eq_zero hz, zero_add]
  refine sum_congr rfl fun n hn => ?_
  have hn' : n + 2 ≤ N := by have := mem_range.mp hn; omega
  simp only [sum_range_succ, sum_range_zero, zero_add]
  generalize Delta.getD n 0 * J.getD n 0 = D
  generalize J.getD 0 0 = j
  rw [opEl_at2_smul (a := flipA j D 0) (b := flipB 0) (a' := pX) (b' := pX) (c := j) hs ht hn' (by
      simp only [all2]; simp [flipA, flipB, opOf, pX]),
    opEl_at2_smul (a := flipA j D 1) (b := flipB 1) (a' := pY) (b' := pY) (c := -j) hs ht hn' (by
      simp only [all2]; repeat' apply And.intro
      all_goals (simp [flipA, flipB, opOf, pY] <;> ring_nf <;> simp [Complex.I_sq])),
    opEl_at2_smul (a := flipA j D 2) (b := flipB 2) (a' := pZ) (b' := pZ) (c := -D) hs ht hn' (by
      simp only [all2]; repeat' apply And.intro
      all_goals simp [flipA, flipB, opOf, pZ])]
  ring

/-- What `XXZflipped(Delta,J,dtype=complex)` represents: every bond carries `J[0]` in the `x` and `y` terms. -/
theorem C45_actual (Delta J : List ℂ) (hN : 1 ≤ Delta.length) (hJ : Delta.length ≤ J.length) :
    ∃ Ws, xxzFlipped Delta J true .complex = .ok Ws ∧ Represents 2 (Delta.length + 1) Ws
      (flipEl (Delta.length + 1) (fun _ => J.getD 0 0) fun n => Delta.getD n 0 * J.getD n 0) := by
  obtain ⟨Ws, h1, h2⟩ := flip_nn Delta J hN hJ
  refine ⟨Ws, h1, h2.represents fun s t hs ht => flip_ham _ _ hs ht⟩

/-- **C45 (partial).** For `dtype=complex` and equal entries of `J` the MPO is the one of the bond terms.  Missing:
inhomogeneous `J` and the default `dtype`, for which the claim is false (below). -/
theorem C45_homogeneous_partial (Delta J : List ℂ) (hN : 1 ≤ Delta.length) (hJ : Delta.length ≤ J.length)
    (hh : ∀ n < Delta.length, J.getD n 0 = J.getD 0 0) :
    ∃ Ws, xxzFlipped Delta J true .complex = .ok Ws ∧ Represents 2 (Delta.length + 1) Ws
      (flipEl (Delta.length + 1) (fun n => J.getD n 0) fun n => Delta.getD n 0 * J.getD n 0) := by
  obtain ⟨Ws, h1, h2⟩ := C45_actual Delta J hN hJ
  refine ⟨Ws, h1, h2.len, h2.linked, h2.dims, fun s t hs ht => (h2.el s t hs ht).trans ?_⟩
  exact sum_congr rfl fun n hn => by simp only [hh n (by have := mem_range.mp hn; omega)]

/-- **C45 is violated** by inhomogeneous couplings: three sites, `J=[1,2]`. -/
theorem C45_inhomogeneous_violated : ∃ Ws, xxzFlipped [0, 0] [1, 2] true .complex = .ok Ws ∧
    ¬ Represents 2 3 Ws (flipEl 3 (fun n => [1, 2].getD n 0) fun n => [0, 0].getD n 0 * [1, 2].getD n 0) := by
  obtain ⟨Ws, h1, h2⟩ := C45_actual [0, 0] [1, 2] (by simp) (by simp)
  refine ⟨Ws, h1, fun h => ?_⟩
  have hs : Cf 2 3 [0, 0, 0] := ⟨rfl, by simp⟩
  have ht : Cf 2 3 [0, 1, 1] := ⟨rfl, by simp⟩
  have e := (h.el _ _ hs ht).symm.trans (h2.el _ _ hs ht)
  simp [flipEl, sum_range_succ, at2, opEl, pX, pY, pZ, eyeK, delta] at e

/-- **C45 is violated** by the default `dtype=float`: the constructor always raises a TypeError. -/
theorem C45_default_dtype_violated (Delta J : List ℂ) (hJ : 1 ≤ J.length) : xxzFlipped Delta J true = .error .type := by
  simp [xxzFlipped, openMpo, getE_getD hJ, bind, Except.bind]

/-! ## C72: TFI_2 -/

/-- **C72 is violated**: `TFI_2(Jz,Bx,obc=True)` raises an AttributeError for all couplings. -/
theorem C72_tfi2_open_violated (Jz Bx : List ℂ) : tfi2 Jz Bx true = .error .attribute := rfl

/-! ## Examples -/

example : ∃ Ws, xxz [1, 2, 3] [1, -1, 1] [0, 1, 0, 1] true = .ok Ws ∧ Ws.length = 4 ∧
    mchain Ws [1, 0, 1, 1] [0, 1, 1, 1] 0 0 = 1 / 2 := by
  obtain ⟨Ws, h1, h2⟩ := C41_xxz [1, 2, 3] [1, -1, 1] [0, 1, 0, 1] (by simp) (by simp) (by simp)
  refine ⟨Ws, h1, h2.len, ?_⟩
  rw [h2.el _ _ ⟨rfl, by simp⟩ ⟨rfl, by simp⟩]
  simp [xxzEl, sum_range_succ, at2, at1, opEl, spP, spM, spZ, eyeK, delta]

example : ∃ Ws, tfi [1, 2] [3, 4, 5] true = .ok Ws ∧ mchain Ws [0, 1, 1] [0, 0, 0] 0 0 = 2 ∧
    mchain Ws [0, 1, 1] [0, 1, 1] 0 0 = 6 := by
  obtain ⟨Ws, h1, h2⟩ := C42_tfi [1, 2] [3, 4, 5] (by simp) (by simp)
  refine ⟨Ws, h1, ?_, ?_⟩ <;> rw [h2.el _ _ ⟨rfl, by simp⟩ ⟨rfl, by simp⟩] <;>
    simp [tfiEl, sum_range_succ, at2, at1, opEl, pX, pZ, eyeK, delta]
  norm_num

example : ∃ Ws, spinless [1, 2] [3, 4] [5, 6, 7] true = .ok Ws ∧ mchain Ws [1, 0, 1] [1, 1, 0] 0 0 = -4 ∧
    mchain Ws [1, 1, 1] [1, 1, 1] 0 0 = 21 := by
  obtain ⟨Ws, h1, h2⟩ := C43_spinless [1, 2] [3, 4] [5, 6, 7] (by simp) (by simp) (by simp)
  refine ⟨Ws, h1, ?_, ?_⟩ <;> rw [h2.el _ _ ⟨rfl, by simp⟩ ⟨rfl, by simp⟩] <;>
    simp [sfEl, sum_range_succ, fEl, word, one, can]
  norm_num

/-- The up particle of site 0 hops to site 1 over the down particle there: a minus sign. -/
example : ∃ Ws, hubbard [1, 2] [3] [4] [5, 6] [7, 8] true = .ok Ws ∧ mchain Ws [1, 2] [0, 3] 0 0 = 3 := by
  obtain ⟨Ws, h1, h2⟩ := C44_hubbard [1, 2] [3] [4] [5, 6] [7, 8] (by simp) (by simp) (by simp) (by simp) (by simp)
  refine ⟨Ws, h1, ?_⟩
  rw [h2.el _ _ ⟨rfl, by simp⟩ ⟨rfl, by simp⟩]
  simp [hubEl, bits, sum_range_succ, fEl, word, one, can]

example : ∃ Ws, jess [1, 2] [3, 4, 5] [6, 7, 8] true = .ok Ws ∧ mchain Ws [0, 2, 0] [2, 0, 0] 0 0 = 2 := by
  obtain ⟨Ws, h1, h2⟩ := C71_jess [1, 2] [3, 4, 5] [6, 7, 8] (by simp) (by simp) (by simp)
  refine ⟨Ws, h1, ?_⟩
  rw [h2.el _ _ ⟨rfl, by simp⟩ ⟨rfl, by simp⟩]
  simp [jessEl, sum_range_succ, at2, at1, opEl, pX, pY, pZ', onHi, onLo, Mat.dot, eyeK, delta]
  try norm_num

end

end PyTeN
