import Verif.Engine.Periodic
import Verif.Ham.Spin

/-! # C97: the effective operators of `PeriodicMPSengine` are those of the ring -/

namespace PyTeN.Periodic
open Finset

/-- Spec: matrix element of `Σ_n h_n + Σ_n Σ_k A^k_n ⊗ B^k_{n+1}` on a ring of `N` sites (site `N` is site `0`). -/
def perEl (d K N : ℕ) (L : Loc) (s t : List ℕ) : ℂ :=
  hamEl d K N (fun _ => L) s t + ∑ k ∈ range K, opEl (L.B k :: (List.replicate (N - 2) (eyeK ℂ d) ++ [L.A k])) s t

/-! ## The MPO part -/

theorem sum_ends (K : ℕ) (f : ℕ → ℂ) :
    ∑ e ∈ range (K + 2), f e = f 0 + ∑ k ∈ range K, f (k + 1) + f (K + 1) := by
  rw [sum_range_succ, sum_range_succ', add_comm (∑ k ∈ range K, f (k + 1))]

theorem mchain_eye {d n : ℕ} (s t : List ℕ) (hs : s.length = n) (ht : t.length = n) :
    mchain (List.replicate n (eyeMpo d)) s t 0 0 = opEl (List.replicate n (eyeK ℂ d)) s t := by
  induction n generalizing s t with
  | zero =>
    obtain rfl := List.length_eq_zero_iff.mp hs
    obtain rfl := List.length_eq_zero_iff.mp ht
    simp [mchain, opEl]
  | succ n ih =>
    obtain ⟨x, s, rfl⟩ := List.exists_cons_of_length_eq_add_one hs
    obtain ⟨y, t, rfl⟩ := List.exists_cons_of_length_eq_add_one ht
    simp only [List.length_cons, Nat.add_right_cancel_iff] at hs ht
    simp only [List.replicate_succ, mchain, opEl]
    rw [show (eyeMpo d).r = 1 from rfl, sum_range_one, ih s t hs ht]
    simp [eyeMpo, eyeK]

/-- The open MPO of nearest-neighbour form, read in its first column. -/
theorem mchain_bulk {d K : ℕ} {W : Mpo ℂ} {L : Loc} (h : NNBulk d K W L) (m : ℕ) (s t : List ℕ) (hs : Cf d (m + 1) s)
    (ht : Cf d (m + 1) t) :
    mchain (List.replicate (m + 1) W) s t 0 0 = opEl (List.replicate (m + 1) (eyeK ℂ d)) s t ∧
    mchain (List.replicate (m + 1) W) s t (K + 1) 0 = hamEl d K (m + 1) (fun _ => L) s t := by
  have hl : NNLast d K { W with r := 1 } L := ⟨h.l, rfl, h.din, h.dout, h.top, h.B, h.h⟩
  have e : (List.range' 0 m).map (fun _ => W) = List.replicate m W := by simp
  have key : ∀ β < K + 2, mchain (List.replicate (m + 1) W) s t β 0
      = mchain (List.replicate m W ++ [{ W with r := 1 }]) s t β 0 := by
    intro β hβ
    obtain ⟨p, w, q, rfl, hp, hw, hq⟩ := hs.split (n := m) (k := 1) (by omega)
    obtain ⟨p', w', q', rfl, hp', hw', hq'⟩ := ht.split (n := m) (k := 1) (by omega)
    obtain rfl := Cf.zero (by simpa using hq)
    obtain rfl := Cf.zero (by simpa using hq')
    obtain ⟨x, w, rfl, hx, hw⟩ := hw.exists_cons
    obtain ⟨x', w', rfl, hx', hw'⟩ := hw'.exists_cons
    obtain rfl := hw.zero
    obtain rfl := hw'.zero
    rw [List.replicate_succ', List.append_nil, List.append_nil,
      mchain_append (mlinked_replicate h.l h.r m) _ _ _ _ (by simpa using hp.1) (by simpa using hp'.1) hβ,
      mchain_append (mlinked_replicate h.l h.r m) _ _ _ _ (by simpa using hp.1) (by simpa using hp'.1) hβ]
    refine sum_congr rfl fun c _ => ?_
    simp only [mchain]
    rw [sum_delta_right (by rw [h.r]; omega), sum_delta_right (by omega)]
  have r := right_env (d := d) (K := K) (X := fun _ => L) (g := fun _ => W) (l := { W with r := 1 }) m 0
    (fun i _ _ => h) hl s t hs ht
  rw [e] at r
  refine ⟨by rw [key 0 (by omega), r.1], ?_⟩
  rw [key (K + 1) (by omega), r.2.2, hamRec_eq d K _ m 0 s t hs.1 ht.1]

theorem opEl_one (o : Mat ℂ) (x y : ℕ) : opEl [o] [x] [y] = o.v x y := by simp [opEl]

/-- The Hamiltonian of the ring, split at the last site. -/
theorem per_split {d K n : ℕ} (L : Loc) {x x' y y' z z' : ℕ} {p p' : List ℕ} (hp : p.length = n) (hp' : p'.length = n) :
    perEl d K (n + 3) L (x :: (p ++ [y, z])) (x' :: (p' ++ [y', z']))
      = hamEl d K (n + 2) (fun _ => L) (x :: (p ++ [y])) (x' :: (p' ++ [y'])) * delta ℂ z z' +
        (delta ℂ x x' * opEl (List.replicate n (eyeK ℂ d)) p p' *
            (∑ k ∈ range K, (L.A k).v y y' * (L.B k).v z z' + delta ℂ y y' * L.h.v z z') +
          ∑ k ∈ range K, (L.B k).v x x' * opEl (List.replicate n (eyeK ℂ d)) p p' * (delta ℂ y y' * (L.A k).v z z')) := by
  have a1 : ∀ i < n + 2, opEl (at1 d (n + 3) i L.h) (x :: (p ++ [y, z])) (x' :: (p' ++ [y', z']))
      = opEl (at1 d (n + 2) i L.h) (x :: (p ++ [y])) (x' :: (p' ++ [y'])) * delta ℂ z z' := by
    intro i hi
    have e : at1 d (n + 3) i L.h = at1 d (n + 2) i L.h ++ [eyeK ℂ d] := by
      simp only [at1]
      rw [show n + 3 - 1 - i = n + 2 - 1 - i + 1 by omega, List.replicate_succ']
      simp
    rw [e, show x :: (p ++ [y, z]) = (x :: (p ++ [y])) ++ [z] by simp,
      show x' :: (p' ++ [y', z']) = (x' :: (p' ++ [y'])) ++ [z'] by simp,
      opEl_append (by simp [at1, hp]; omega) (by simp [at1, hp']; omega), opEl_one]
    rfl
  have a2 : ∀ (k i : ℕ), i < n + 1 → opEl (at2 d (n + 3) i (L.A k) (L.B k)) (x :: (p ++ [y, z])) (x' :: (p' ++ [y', z']))
      = opEl (at2 d (n + 2) i (L.A k) (L.B k)) (x :: (p ++ [y])) (x' :: (p' ++ [y'])) * delta ℂ z z' := by
    intro k i hi
    have e : at2 d (n + 3) i (L.A k) (L.B k) = at2 d (n + 2) i (L.A k) (L.B k) ++ [eyeK ℂ d] := by
      simp only [at2]
      rw [show n + 3 - 2 - i = n + 2 - 2 - i + 1 by omega, List.replicate_succ']
      simp
    rw [e, show x :: (p ++ [y, z]) = (x :: (p ++ [y])) ++ [z] by simp,
      show x' :: (p' ++ [y', z']) = (x' :: (p' ++ [y'])) ++ [z'] by simp,
      opEl_append (by simp [at2, hp]; omega) (by simp [at2, hp']; omega), opEl_one]
    rfl
  have b1 : opEl (at1 d (n + 3) (n + 2) L.h) (x :: (p ++ [y, z])) (x' :: (p' ++ [y', z']))
      = delta ℂ x x' * opEl (List.replicate n (eyeK ℂ d)) p p' * (delta ℂ y y' * L.h.v z z') := by
    have e : at1 d (n + 3) (n + 2) L.h = eyeK ℂ d :: (List.replicate n (eyeK ℂ d) ++ [eyeK ℂ d, L.h]) := by
      simp only [at1]
      rw [show n + 3 - 1 - (n + 2) = 0 by omega, List.replicate_succ, List.replicate_succ']
      simp
    rw [e]
    simp only [opEl]
    rw [opEl_append (by simp [hp]) (by simp [hp'])]
    simp only [opEl, eyeK]
    ring
  have b2 : ∀ k, opEl (at2 d (n + 3) (n + 1) (L.A k) (L.B k)) (x :: (p ++ [y, z])) (x' :: (p' ++ [y', z']))
      = delta ℂ x x' * opEl (List.replicate n (eyeK ℂ d)) p p' * ((L.A k).v y y' * (L.B k).v z z') := by
    intro k
    have e : at2 d (n + 3) (n + 1) (L.A k) (L.B k)
        = eyeK ℂ d :: (List.replicate n (eyeK ℂ d) ++ [L.A k, L.B k]) := by
      simp only [at2]
      rw [show n + 3 - 2 - (n + 1) = 0 by omega, List.replicate_succ]
      simp
    rw [e]
    simp only [opEl]
    rw [opEl_append (by simp [hp]) (by simp [hp'])]
    simp only [opEl, eyeK]
    ring
  have b3 : ∀ k, opEl (L.B k :: (List.replicate (n + 3 - 2) (eyeK ℂ d) ++ [L.A k])) (x :: (p ++ [y, z]))
      (x' :: (p' ++ [y', z']))
      = (L.B k).v x x' * opEl (List.replicate n (eyeK ℂ d)) p p' * (delta ℂ y y' * (L.A k).v z z') := by
    intro k
    rw [show n + 3 - 2 = n + 1 by omega, List.replicate_succ', List.append_assoc]
    simp only [opEl]
    rw [opEl_append (by simp [hp]) (by simp [hp'])]
    simp only [List.cons_append, List.nil_append, opEl, eyeK]
    ring
  have s1 : ∑ i ∈ range (n + 3), opEl (at1 d (n + 3) i L.h) (x :: (p ++ [y, z])) (x' :: (p' ++ [y', z']))
      = ∑ i ∈ range (n + 2), opEl (at1 d (n + 2) i L.h) (x :: (p ++ [y])) (x' :: (p' ++ [y'])) * delta ℂ z z' +
        delta ℂ x x' * opEl (List.replicate n (eyeK ℂ d)) p p' * (delta ℂ y y' * L.h.v z z') := by
    rw [sum_range_succ _ (n + 2), b1, sum_congr rfl fun i hi => a1 i (mem_range.mp hi)]
  have s2 : ∑ i ∈ range (n + 2), ∑ k ∈ range K,
        opEl (at2 d (n + 3) i (L.A k) (L.B k)) (x :: (p ++ [y, z])) (x' :: (p' ++ [y', z']))
      = ∑ i ∈ range (n + 1), ∑ k ∈ range K,
          opEl (at2 d (n + 2) i (L.A k) (L.B k)) (x :: (p ++ [y])) (x' :: (p' ++ [y'])) * delta ℂ z z' +
        ∑ k ∈ range K, delta ℂ x x' * opEl (List.replicate n (eyeK ℂ d)) p p' * ((L.A k).v y y' * (L.B k).v z z') := by
    rw [sum_range_succ _ (n + 1), sum_congr rfl fun k _ => b2 k,
      sum_congr rfl fun i hi => sum_congr rfl fun k _ => a2 k i (mem_range.mp hi)]
  simp only [perEl, hamEl]
  rw [sum_congr rfl fun k _ => b3 k, show n + 3 - 1 = n + 2 by omega, show n + 2 - 1 = n + 1 by omega, s1, s2]
  simp only [← sum_mul, ← mul_sum]
  ring

/-- The three summands of `Heff` applied to the open site: both bonds of that site and its on-site term. -/
theorem local_split {d K n : ℕ} {W W0 W2 : Mpo ℂ} {L : Loc} (h : NNBulk d K W L) (h0r : W0.r = K + 2)
    (h0 : ∀ c s t, W0.v 0 c s t = if c = 0 then 0 else W.v (K + 1) c s t) (h2l : W2.l = K + 2) (h2r : W2.r = 1)
    (h2 : ∀ b s t, W2.v b 0 s t = if b = K + 1 then 0 else W.v b 0 s t)
    {x x' y y' z z' : ℕ} {p p' : List ℕ} (hp : p.length = n) (hp' : p'.length = n) (hx : x < d) (hx' : x' < d)
    (hy : y < d) (hy' : y' < d) (hz : z < d) (hz' : z' < d) :
    ∑ e ∈ range (K + 2), mchain ([W2] ++ (List.replicate n (eyeMpo d) ++ [W0]) ++ [W]) (x :: (p ++ [y, z]))
        (x' :: (p' ++ [y', z'])) e e
      = delta ℂ x x' * opEl (List.replicate n (eyeK ℂ d)) p p' *
            (∑ k ∈ range K, (L.A k).v y y' * (L.B k).v z z' + delta ℂ y y' * L.h.v z z') +
          ∑ k ∈ range K, (L.B k).v x x' * opEl (List.replicate n (eyeK ℂ d)) p p' * (delta ℂ y y' * (L.A k).v z z') := by
  have m : ∀ e < K + 2, mchain ([W2] ++ (List.replicate n (eyeMpo d) ++ [W0]) ++ [W]) (x :: (p ++ [y, z]))
        (x' :: (p' ++ [y', z'])) e e
      = W2.v e 0 x x' * (opEl (List.replicate n (eyeK ℂ d)) p p' *
        ∑ b ∈ range (K + 2), W0.v 0 b y y' * W.v b e z z') := by
    intro e he
    simp only [List.cons_append, List.nil_append, List.append_assoc, mchain]
    rw [h2r, sum_range_one, mchain_append (mlinked_replicate (B := 1) rfl rfl n) p p' [y, z] [y', z'] (by simp [hp])
      (by simp [hp']) (by omega), sum_range_one, mchain_eye p p' hp hp']
    simp only [mchain]
    rw [h0r]
    congr 2
    refine sum_congr rfl fun b _ => ?_
    rw [sum_delta_right (by rw [h.r]; exact he)]
  rw [sum_congr rfl fun e he => m e (mem_range.mp he), sum_ends]
  have t0 : ∑ b ∈ range (K + 2), W0.v 0 b y y' * W.v b 0 z z'
      = ∑ k ∈ range K, (L.A k).v y y' * (L.B k).v z z' + delta ℂ y y' * L.h.v z z' := by
    rw [sum_ends]
    rw [h.h z hz z' hz', h0 0, if_pos rfl, h0 (K + 1), if_neg (by omega), h.one y hy y' hy', zero_mul, zero_add]
    congr 1
    refine sum_congr rfl fun k hk => ?_
    rw [h0 (k + 1), if_neg (by omega), h.A k (mem_range.mp hk) y hy y' hy', h.B k (mem_range.mp hk) z hz z' hz']
  have tk : ∀ k < K, ∑ b ∈ range (K + 2), W0.v 0 b y y' * W.v b (k + 1) z z' = delta ℂ y y' * (L.A k).v z z' := by
    intro k hk
    rw [sum_ends, h0 0, if_pos rfl, h0 (K + 1), if_neg (by omega), h.one y hy y' hy', h.A k hk z hz z' hz',
      sum_eq_zero fun j hj => by
        rw [h.zero (j + 1) (by simp at hj; omega) k (by omega) z hz z' hz', mul_zero]]
    ring
  rw [t0, h2 0, if_neg (by omega), h.top x hx x' hx', h2 (K + 1), if_pos rfl, zero_mul, add_zero]
  congr 1
  · ring
  · refine sum_congr rfl fun k hk => ?_
    have hk := mem_range.mp hk
    rw [tk k hk, h2 (k + 1), if_neg (by omega), h.B k hk x hx x' hx']
    ring

/-- The blocks without the last site: `pick` extracts the open Hamiltonian. -/
theorem env_split {d K n : ℕ} {W : Mpo ℂ} {L : Loc} (h : NNBulk d K W L) {z z' : ℕ} {q q' : List ℕ}
    (hq : Cf d (n + 2) q) (hq' : Cf d (n + 2) q') :
    ∑ e ∈ range (K + 2), mchain (List.replicate (n + 2) W ++ [pick (K + 2) d]) (q ++ [z]) (q' ++ [z']) e e
      = hamEl d K (n + 2) (fun _ => L) q q' * delta ℂ z z' := by
  have m : ∀ e < K + 2, mchain (List.replicate (n + 2) W ++ [pick (K + 2) d]) (q ++ [z]) (q' ++ [z']) e e
      = ∑ b ∈ range (K + 2), mchain (List.replicate (n + 2) W) q q' e b * (pick (K + 2) d).v b e z z' := by
    intro e he
    rw [mchain_append (mlinked_replicate h.l h.r _) q q' [z] [z'] (by simpa using hq.1) (by simpa using hq'.1) he]
    refine sum_congr rfl fun b _ => ?_
    simp only [mchain]
    rw [sum_delta_right (by simpa [pick] using he)]
  rw [sum_congr rfl fun e he => m e (mem_range.mp he), sum_comm,
    pick_sum (by omega) d z z' fun b e => mchain (List.replicate (n + 2) W) q q' e b]
  rw [show K + 2 - 1 = K + 1 by omega, (mchain_bulk h (n + 1) q q' hq hq').2]

theorem cf_snoc {d n y : ℕ} {p : List ℕ} (hp : Cf d n p) (hy : y < d) : Cf d (n + 1) (p ++ [y]) := by
  refine ⟨by simp [hp.1], fun a ha => ?_⟩
  rcases List.mem_append.mp ha with ha | ha
  · exact hp.2 a ha
  · rw [List.mem_singleton.mp ha]; exact hy

theorem ring_mpo {d K n : ℕ} {W W0 W2 : Mpo ℂ} {L : Loc} (h : NNBulk d K W L) (h0r : W0.r = K + 2)
    (h0 : ∀ c s t, W0.v 0 c s t = if c = 0 then 0 else W.v (K + 1) c s t) (h2l : W2.l = K + 2) (h2r : W2.r = 1)
    (h2 : ∀ b s t, W2.v b 0 s t = if b = K + 1 then 0 else W.v b 0 s t) {s t : List ℕ} (hs : Cf d (n + 3) s)
    (ht : Cf d (n + 3) t) :
    ∑ e ∈ range (K + 2), mchain ([W2] ++ (List.replicate n (eyeMpo d) ++ [W0]) ++ [W]) s t e e +
      ∑ e ∈ range (K + 2), mchain (List.replicate (n + 2) W ++ [pick (K + 2) d]) s t e e = perEl d K (n + 3) L s t := by
  obtain ⟨x, s1, rfl, hx, hs1⟩ := hs.exists_cons
  obtain ⟨x', t1, rfl, hx', ht1⟩ := ht.exists_cons
  obtain ⟨p, w, q, rfl, hp, hw, hq⟩ := hs1.split (n := n) (k := 2) (by omega)
  obtain ⟨p', w', q', rfl, hp', hw', hq'⟩ := ht1.split (n := n) (k := 2) (by omega)
  obtain rfl := Cf.zero (by simpa using hq)
  obtain rfl := Cf.zero (by simpa using hq')
  obtain ⟨y, w, rfl, hy, hw⟩ := hw.exists_cons
  obtain ⟨y', w', rfl, hy', hw'⟩ := hw'.exists_cons
  obtain ⟨z, w, rfl, hz, hw⟩ := hw.exists_cons
  obtain ⟨z', w', rfl, hz', hw'⟩ := hw'.exists_cons
  obtain rfl := hw.zero
  obtain rfl := hw'.zero
  rw [List.append_nil, List.append_nil,
    local_split h h0r h0 h2l h2r h2 hp.1 hp'.1 hx hx' hy hy' hz hz', per_split L hp.1 hp'.1, add_comm]
  congr 1
  have e1 : x :: (p ++ [y, z]) = (x :: (p ++ [y])) ++ [z] := by simp
  have e2 : x' :: (p' ++ [y', z']) = (x' :: (p' ++ [y'])) ++ [z'] := by simp
  rw [e1, e2, env_split h]
  · exact Cf.cons_iff.mpr ⟨hx, cf_snoc hp hy⟩
  · exact Cf.cons_iff.mpr ⟨hx', cf_snoc hp' hy'⟩

/-! ## The engine -/

/-- What `getHeffNeff` returns for a ring of `n + 3` sites. -/
structure EffOk (D d K n : ℕ) (A : Ten ℂ) (W W0 W2 : Mpo ℂ) (P : Eff) : Prop where
  hs : IsBlk D (K + 2) P.heffSite ([A] ++ (List.replicate n A ++ [A])) ([W2] ++ (List.replicate n (eyeMpo d) ++ [W0]))
  nsr : P.neffSite.r = D
  nsr' : P.neffSite.r' = D
  nsb : P.neffSite.b = 1
  nsl : P.neffSite.l = D
  nsl' : P.neffSite.l' = D
  nse : P.neffSite.e = 1
  nsv : ∀ r < D, ∀ r' < D, ∀ l < D, ∀ l' < D, P.neffSite.v r r' 0 l l' 0
    = blockOf (List.replicate (n + 2) A) (List.replicate (n + 2) W) (List.replicate (n + 2) A) r r' 0 l l' 0
  her : P.henvSite.r = D
  her' : P.henvSite.r' = D
  hel : P.henvSite.l = D
  hel' : P.henvSite.l' = D
  hev : ∀ r < D, ∀ r' < D, ∀ l < D, ∀ l' < D, P.henvSite.v r r' l l'
    = blockOf (List.replicate (n + 2) A) (List.replicate (n + 2) W) (List.replicate (n + 2) A) r r' 0 l l' (K + 1)
  nb : IsBlk4 D P.neffBond (List.replicate (n + 3) A) (List.replicate (n + 3) (eyeMpo d))
  hb : heffBond A W P.heffSite = .ok P.heffBond
  eb : henvBond A P.henvSite = .ok P.henvBond

theorem init_ok {d K : ℕ} {A : Ten ℂ} {W : Mpo ℂ} {L : Loc} (h : NNBulk d K W L) (Ws : List (Mpo ℂ)) (N : ℕ) :
    ∃ g, initPeriodic [A] (some false) (W :: Ws) N = .ok g ∧ g.A = A ∧ g.mpo1 = W ∧ g.N = N ∧
      (g.mpo0.l = 1 ∧ g.mpo0.r = K + 2 ∧ g.mpo0.din = d ∧ g.mpo0.dout = d ∧
        ∀ c s t, g.mpo0.v 0 c s t = if c = 0 then 0 else W.v (K + 1) c s t) ∧
      (g.mpo2.l = K + 2 ∧ g.mpo2.r = 1 ∧ g.mpo2.din = d ∧ g.mpo2.dout = d ∧
        ∀ b s t, g.mpo2.v b 0 s t = if b = K + 1 then 0 else W.v b 0 s t) := by
  unfold initPeriodic
  rw [if_neg (by simp)]
  dsimp only
  rw [if_neg (by rw [h.l, h.r]; omega)]
  refine ⟨_, rfl, rfl, rfl, rfl, ⟨rfl, h.r, h.din, h.dout, fun c s t => ?_⟩, h.l, rfl, h.din, h.dout, fun b s t => ?_⟩
  · simp only [h.l, mul_zero]; rfl
  · simp only [h.l, mul_zero]; rfl

theorem eff_ok {D d K n : ℕ} {g : Eng} {L : Loc} (hA : Sq D d g.A) (h : NNBulk d K g.mpo1 L) (hn : 1 ≤ n)
    (hN : g.N = n + 3) (h0l : g.mpo0.l = 1) (h0r : g.mpo0.r = K + 2) (h0i : g.mpo0.din = d) (h0o : g.mpo0.dout = d)
    (h2l : g.mpo2.l = K + 2) (h2r : g.mpo2.r = 1) (h2i : g.mpo2.din = d) (h2o : g.mpo2.dout = d) :
    ∃ P, getHeffNeff g = .ok P ∧ EffOk D d K n g.A g.mpo1 g.mpo0 g.mpo2 P := by
  obtain ⟨H0, e0, i0⟩ := hbla_init hA h.l h.r h.din h.dout
  obtain ⟨H, e1, i1⟩ := hbla_loop hA h.l h.r h.din h.dout (n + 1) 1 H0 i0
  obtain ⟨nb, e2, i2⟩ := empty_pow hA (n := n + 3) (by omega)
  obtain ⟨nt, e3, i3⟩ := empty_pow hA (n := n) hn
  obtain ⟨hs, e4, i4⟩ := heff_site hA h0l h0r h0i h0o h2l h2r h2i h2o i3
  rw [show 1 + (n + 1) = n + 2 by omega] at i1
  have e5 : ∃ hb, heffBond g.A g.mpo1 hs = .ok hb := ⟨_, if_pos ⟨by rw [i4.r, hA.l], by rw [i4.r', hA.l],
    by rw [i4.b, h.l], by rw [i4.e, h.r], by rw [hA.d, h.din], by rw [hA.d, h.dout]⟩⟩
  obtain ⟨hb, e5⟩ := e5
  have e6 : ∃ eb, henvBond g.A ⟨H.r, H.r', H.l, H.l', fun r r' l l' => H.v r r' 0 l l' (H.e - 1)⟩ = .ok eb :=
    ⟨_, if_pos ⟨by rw [hA.l]; exact i1.r, by rw [hA.l]; exact i1.r'⟩⟩
  obtain ⟨eb, e6⟩ := e6
  unfold getHeffNeff
  rw [if_neg (by rw [hA.l, hA.r]; simp), e0, hN, show n + 3 - 2 = n + 1 by omega, show n + 3 - 3 = n by omega]
  simp only [e1, e2, e3, e4, e5, e6]
  rw [if_neg (by rw [i1.b, i1.e]; omega)]
  refine ⟨_, rfl, i4, hA.l, hA.l, rfl, hA.r, hA.r, rfl, ?_, i1.r, i1.r', i1.l, i1.l', ?_, i2, e5, e6⟩
  · intro r hr r' hr' l hl l' hl'
    exact i1.v r hr r' hr' 0 (by omega) l hl l' hl' 0 (by omega)
  · intro r hr r' hr' l hl l' hl'
    have := i1.v r hr r' hr' 0 (by omega) l hl l' hl' (K + 1) (by omega)
    rw [← this, i1.e]
    rfl

theorem rep_cat (n : ℕ) (A : Ten ℂ) : [A] ++ (List.replicate n A ++ [A]) = List.replicate (n + 2) A := by
  rw [← List.replicate_succ', List.singleton_append, ← List.replicate_succ]

theorem cf_of {d N : ℕ} {s : List ℕ} (h : List.Forall₂ (fun d x => x < d) (List.replicate N d) s) : Cf d N s := by
  induction N generalizing s with
  | zero => cases h; simp [Cf]
  | succ N ih =>
    rw [List.replicate_succ] at h
    cases h with
    | cons hx h => exact Cf.cons_iff.mpr ⟨hx, ih h⟩

theorem map_d {D d n : ℕ} {A X : Ten ℂ} (hA : Sq D d A) (hX : Sq D d X) :
    (List.replicate (n + 2) A ++ [X]).map Ten.d = List.replicate (n + 3) d := by
  simp [hA.d, hX.d, List.replicate_succ' (n := n + 2)]

/-- Spec: matrix element of the Hamiltonian of the ring between the states with one tensor replaced. -/
def ringHam (D d K N : ℕ) (L : Loc) (As Bs : List (Ten ℂ)) : ℂ :=
  sumCfg (List.replicate N d) fun s => sumCfg (List.replicate N d) fun t =>
    star (ringAmp D Bs t) * perEl d K N L s t * ringAmp D As s

/-- Spec: overlap of two states of the ring. -/
def ringDot (D d N : ℕ) (As Bs : List (Ten ℂ)) : ℂ :=
  sumCfg (List.replicate N d) fun s => star (ringAmp D Bs s) * ringAmp D As s

theorem matvec_ok {D d K n : ℕ} {A X Y : Ten ℂ} {W W0 W2 : Mpo ℂ} {L : Loc} {P : Eff} (hA : Sq D d A)
    (h : NNBulk d K W L) (h0l : W0.l = 1) (h0r : W0.r = K + 2)
    (h0 : ∀ c s t, W0.v 0 c s t = if c = 0 then 0 else W.v (K + 1) c s t) (h2l : W2.l = K + 2) (h2r : W2.r = 1)
    (h2 : ∀ b s t, W2.v b 0 s t = if b = K + 1 then 0 else W.v b 0 s t) (hP : EffOk D d K n A W W0 W2 P)
    (hX : Sq D d X) (hY : Sq D d Y) :
    ∃ V, matvec P.heffSite P.henvSite W X = .ok V ∧ tdot Y V = .ok (ringHam D d K (n + 3) L
      (List.replicate (n + 2) A ++ [X]) (List.replicate (n + 2) A ++ [Y])) := by
  have i := hP.hs
  refine ⟨_, if_pos ⟨by rw [hX.l, i.r], by rw [hX.r, i.r], by rw [hX.d, h.din], by rw [i.l, i.r], by rw [i.b, h.l],
    by rw [i.e, h.r], by rw [hP.her, i.r], by rw [hP.hel, i.r], by rw [i.r', hP.her'], by rw [i.l', hP.hel'],
    by rw [h.dout, h.din], by rw [i.r', i.r], by rw [i.l', i.r]⟩, ?_⟩
  unfold tdot
  rw [if_pos ⟨by rw [hY.l]; exact i.r'.symm, by rw [hY.r]; exact i.l'.symm, by rw [hY.d]; exact h.dout.symm⟩]
  congr 1
  simp only [hX.l, hX.r, hX.d, hY.l, hY.r, hY.d, i.b, i.e, mul_add, sum_add_distrib]
  have p1 := ring_sum (D := D) (d := d) (B := K + 2) (E := K + 2) (As := List.replicate (n + 2) A)
    (Bs := List.replicate (n + 2) A) (Ws := [W2] ++ (List.replicate n (eyeMpo d) ++ [W0])) (X := X) (Y := Y) (W := W)
    (linked_replicate hA.l hA.r _) (linked_replicate hA.l hA.r _)
    (mlinked_append.mpr ⟨1, one_mlinked h2l h2r, mlinked_append.mpr ⟨1, mlinked_replicate (B := 1) rfl rfl n,
      one_mlinked h0l h0r⟩⟩) (by simp) (by simp) hX.r hX.d hY.r hY.d h.r
  have p2 := ring_sum (D := D) (d := d) (B := K + 2) (E := K + 2) (As := List.replicate (n + 2) A)
    (Bs := List.replicate (n + 2) A) (Ws := List.replicate (n + 2) W) (X := X) (Y := Y) (W := pick (K + 2) d)
    (linked_replicate hA.l hA.r _) (linked_replicate hA.l hA.r _) (mlinked_replicate h.l h.r _) (by simp) (by simp) hX.r
    hX.d hY.r hY.d rfl
  have q1 : ∑ r' ∈ range D, ∑ l' ∈ range D, ∑ t ∈ range d, star (Y.v r' l' t) *
      (∑ r ∈ range D, ∑ s ∈ range d, ∑ b ∈ range (K + 2), ∑ l ∈ range D, ∑ e ∈ range (K + 2),
        P.heffSite.v r r' b l l' e * W.v b e s t * X.v r l s)
      = ∑ r' ∈ range D, ∑ l' ∈ range D, ∑ t ∈ range d, star (Y.v r' l' t) *
      (∑ r ∈ range D, ∑ s ∈ range d, ∑ b ∈ range (K + 2), ∑ l ∈ range D, ∑ e ∈ range (K + 2),
        blockOf (List.replicate (n + 2) A) ([W2] ++ (List.replicate n (eyeMpo d) ++ [W0])) (List.replicate (n + 2) A)
          r r' b l l' e * W.v b e s t * X.v r l s) := by
    refine sum_congr rfl fun r' hr' => sum_congr rfl fun l' hl' => sum_congr rfl fun t _ => ?_
    congr 1
    refine sum_congr rfl fun r hr => sum_congr rfl fun s _ => sum_congr rfl fun b hb => sum_congr rfl fun l hl =>
      sum_congr rfl fun e he => ?_
    rw [mem_range] at *
    rw [i.v r hr r' hr' b hb l hl l' hl' e he, rep_cat]
  have q2 : ∑ r' ∈ range D, ∑ l' ∈ range D, ∑ t ∈ range d, star (Y.v r' l' t) *
      (∑ r ∈ range D, ∑ l ∈ range D, P.henvSite.v r r' l l' * X.v r l t)
      = ∑ r' ∈ range D, ∑ l' ∈ range D, ∑ t ∈ range d, star (Y.v r' l' t) *
      (∑ r ∈ range D, ∑ s ∈ range d, ∑ b ∈ range (K + 2), ∑ l ∈ range D, ∑ e ∈ range (K + 2),
        blockOf (List.replicate (n + 2) A) (List.replicate (n + 2) W) (List.replicate (n + 2) A)
          r r' b l l' e * (pick (K + 2) d).v b e s t * X.v r l s) := by
    refine sum_congr rfl fun r' hr' => sum_congr rfl fun l' hl' => sum_congr rfl fun t ht => ?_
    congr 1
    refine sum_congr rfl fun r hr => ?_
    rw [mem_range] at *
    have e1 : ∀ s, ∑ b ∈ range (K + 2), ∑ l ∈ range D, ∑ e ∈ range (K + 2),
        blockOf (List.replicate (n + 2) A) (List.replicate (n + 2) W) (List.replicate (n + 2) A) r r' b l l' e *
          (pick (K + 2) d).v b e s t * X.v r l s
        = ∑ l ∈ range D, P.henvSite.v r r' l l' * delta ℂ s t * X.v r l s := by
      intro s
      rw [sum_comm]
      refine sum_congr rfl fun l hl => ?_
      rw [hP.hev r hr r' hr' l (mem_range.mp hl) l' hl']
      have := pick_sum (B := K + 2) (by omega) d s t fun b e =>
        blockOf (List.replicate (n + 2) A) (List.replicate (n + 2) W) (List.replicate (n + 2) A) r r' b l l' e
      rw [show K + 2 - 1 = K + 1 by omega] at this
      rw [← this]
      simp only [sum_mul]
    rw [sum_congr rfl fun s _ => e1 s, sum_comm]
    refine sum_congr rfl fun l _ => ?_
    rw [← sum_delta_left' ht fun s => P.henvSite.v r r' l l' * X.v r l s]
    refine sum_congr rfl fun s _ => by ring
  rw [q1, q2, p1, p2, map_d hA hX, map_d hA hY, ← sumCfg_add]
  unfold ringHam
  refine sumCfg_congr fun s hs => ?_
  rw [← sumCfg_add]
  refine sumCfg_congr fun t ht => ?_
  rw [← ring_mpo h h0r h0 h2l h2r h2 (cf_of hs) (cf_of ht)]
  ring

/-! ## Norms -/

theorem block_eye {D d K m : ℕ} {A : Ten ℂ} {W : Mpo ℂ} {L : Loc} (hA : Sq D d A) (h : NNBulk d K W L)
    (r r' l l' : ℕ) :
    blockOf (List.replicate (m + 1) A) (List.replicate (m + 1) W) (List.replicate (m + 1) A) r r' 0 l l' 0
      = blockOf (List.replicate (m + 1) A) (List.replicate (m + 1) (eyeMpo d)) (List.replicate (m + 1) A) r r' 0 l l' 0 := by
  unfold blockOf
  refine sumCfg_congr fun s hs => sumCfg_congr fun t ht => ?_
  rw [List.map_replicate, hA.d] at hs ht
  have hs := cf_of hs
  have ht := cf_of ht
  rw [(mchain_bulk h m s t hs ht).1, mchain_eye s t hs.1 ht.1]

theorem ring_eye {D d N : ℕ} (As Bs : List (Ten ℂ)) (hA : As.map Ten.d = List.replicate N d)
    (hB : Bs.map Ten.d = List.replicate N d) :
    (sumCfg (As.map Ten.d) fun s => sumCfg (Bs.map Ten.d) fun t =>
      ringAmp D As s * (∑ e ∈ range 1, mchain (List.replicate N (eyeMpo d)) s t e e) * star (ringAmp D Bs t))
      = ringDot D d N As Bs := by
  rw [hA, hB]
  unfold ringDot
  refine sumCfg_congr fun s hs => ?_
  rw [← sumCfg_if (s := s) hs fun t => star (ringAmp D Bs t) * ringAmp D As s]
  refine sumCfg_congr fun t ht => ?_
  have hs := cf_of hs
  have ht := cf_of ht
  rw [sum_range_one, mchain_eye s t hs.1 ht.1, opEl_eye d N s t hs.1 ht.1]
  by_cases e : t = s
  · rw [if_pos e, if_pos e.symm]; ring
  · rw [if_neg e, if_neg (Ne.symm e)]; ring

theorem gram_ok {D d K n : ℕ} {A X Y : Ten ℂ} {W W0 W2 : Mpo ℂ} {L : Loc} {P : Eff} (hA : Sq D d A)
    (h : NNBulk d K W L) (hP : EffOk D d K n A W W0 W2 P) (hX : Sq D d X) (hY : Sq D d Y) :
    ∃ V, gram P.neffSite (eyeMpo d) X = .ok V ∧ tdot Y V = .ok (ringDot D d (n + 3)
      (List.replicate (n + 2) A ++ [X]) (List.replicate (n + 2) A ++ [Y])) := by
  refine ⟨_, if_pos ⟨by rw [hX.l, hP.nsr], by rw [hX.r, hP.nsr], hX.d, by rw [hP.nsl, hP.nsr], hP.nsb, hP.nse, rfl,
    by rw [hP.nsr', hP.nsr], by rw [hP.nsl', hP.nsr]⟩, ?_⟩
  unfold tdot
  rw [if_pos ⟨by rw [hY.l]; exact hP.nsr'.symm, by rw [hY.r]; exact hP.nsl'.symm, hY.d⟩]
  congr 1
  simp only [hX.l, hX.r, hX.d, hY.l, hY.r, hY.d, hP.nsb, hP.nse]
  have p1 := ring_sum (D := D) (d := d) (B := 1) (E := 1) (As := List.replicate (n + 2) A)
    (Bs := List.replicate (n + 2) A) (Ws := List.replicate (n + 2) (eyeMpo d)) (X := X) (Y := Y) (W := eyeMpo d)
    (linked_replicate hA.l hA.r _) (linked_replicate hA.l hA.r _) (mlinked_replicate (B := 1) rfl rfl _) (by simp) (by simp) hX.r
    hX.d hY.r hY.d rfl
  rw [← List.replicate_succ', ring_eye _ _ (map_d hA hX) (map_d hA hY)] at p1
  rw [← p1]
  refine sum_congr rfl fun r' hr' => sum_congr rfl fun l' hl' => sum_congr rfl fun t _ => ?_
  congr 1
  refine sum_congr rfl fun r hr => sum_congr rfl fun s _ => ?_
  rw [mem_range] at *
  rw [sum_range_one, sum_range_one]
  refine sum_congr rfl fun l hl => ?_
  rw [sum_range_one, sum_range_one, hP.nsv r hr r' hr' l (mem_range.mp hl) l' hl', block_eye hA h]

theorem norm_ok {D d N : ℕ} {A : Ten ℂ} {E : Four} (hA : Sq D d A)
    (hE : IsBlk4 D E (List.replicate N A) (List.replicate N (eyeMpo d))) :
    traceFour E = ringDot D d N (List.replicate N A) (List.replicate N A) := by
  rw [← ring_eye _ _ (by simp [hA.d]) (by simp [hA.d]), ring_expand]
  unfold traceFour
  rw [hE.r, hE.r']
  refine sum_congr rfl fun r hr => sum_congr rfl fun r' hr' => ?_
  rw [mem_range] at hr hr'
  rw [sum_range_one, hE.v r hr r' hr' r hr r' hr']

/-! ## The bond matrix -/

/-- Spec: amplitude of a configuration on a ring with a matrix on the bond between its last and its first site. -/
def ringAmpC (D : ℕ) (As : List (Ten ℂ)) (C : Mat ℂ) (s : List ℕ) : ℂ :=
  ∑ l ∈ range D, ∑ r ∈ range D, chain As s l r * C.v r l

theorem bond_v {D d K n : ℕ} {A : Ten ℂ} {W W0 W2 : Mpo ℂ} {L : Loc} {P : Eff} (hA : Sq D d A)
    (h : NNBulk d K W L) (h0l : W0.l = 1) (h0r : W0.r = K + 2)
    (h0 : ∀ c s t, W0.v 0 c s t = if c = 0 then 0 else W.v (K + 1) c s t) (h2l : W2.l = K + 2) (h2r : W2.r = 1)
    (h2 : ∀ b s t, W2.v b 0 s t = if b = K + 1 then 0 else W.v b 0 s t) (hP : EffOk D d K n A W W0 W2 P) :
    ∃ Q, Four.add P.heffBond P.henvBond = .ok Q ∧ Q.r = D ∧ Q.r' = D ∧ Q.l = D ∧ Q.l' = D ∧
      ∀ r < D, ∀ r' < D, ∀ l < D, ∀ l' < D, Q.v r r' l l' = sumCfg (List.replicate (n + 3) d) fun s =>
        sumCfg (List.replicate (n + 3) d) fun t => chain (List.replicate (n + 3) A) s l r * perEl d K (n + 3) L s t *
          star (chain (List.replicate (n + 3) A) t l' r') := by
  have i := hP.hs
  have hb := hP.hb
  have eb := hP.eb
  unfold heffBond at hb
  rw [if_pos ⟨by rw [i.r, hA.l], by rw [i.r', hA.l], by rw [i.b, h.l], by rw [i.e, h.r], by rw [hA.d, h.din],
    by rw [hA.d, h.dout]⟩] at hb
  unfold henvBond at eb
  rw [if_pos ⟨by rw [hP.her, hA.l], by rw [hP.her', hA.l]⟩] at eb
  have hb := (Except.ok.inj hb).symm
  have eb := (Except.ok.inj eb).symm
  rw [hb, eb]
  refine ⟨_, if_pos ⟨rfl, rfl, by dsimp only; rw [i.l, hP.hel], by dsimp only; rw [i.l', hP.hel']⟩, hA.r, hA.r, i.l, i.l', ?_⟩
  intro r hr r' hr' l hl l' hl'
  simp only [i.r, i.r', i.b, i.e, hA.d, hP.her, hP.her']
  have p1 := bond_block (D := D) (d := d) (B := K + 2) (E := K + 2) (As := List.replicate (n + 2) A)
    (Ws := [W2] ++ (List.replicate n (eyeMpo d) ++ [W0])) (A := A) (W := W) hA (linked_replicate hA.l hA.r _)
    (mlinked_append.mpr ⟨1, one_mlinked h2l h2r, mlinked_append.mpr ⟨1, mlinked_replicate (B := 1) rfl rfl n,
      one_mlinked h0l h0r⟩⟩) (by simp) h.r hr hr' hl hl'
  have p2 := bond_block (D := D) (d := d) (B := K + 2) (E := K + 2) (As := List.replicate (n + 2) A)
    (Ws := List.replicate (n + 2) W) (A := A) (W := pick (K + 2) d) hA (linked_replicate hA.l hA.r _)
    (mlinked_replicate h.l h.r _) (by simp) rfl hr hr' hl hl'
  have q1 : ∑ i ∈ range D, ∑ s ∈ range d, ∑ b ∈ range (K + 2), ∑ t ∈ range d, ∑ i' ∈ range D, ∑ e ∈ range (K + 2),
        P.heffSite.v i i' b l l' e * A.v i r s * W.v b e s t * star (A.v i' r' t)
      = ∑ i ∈ range D, ∑ s ∈ range d, ∑ b ∈ range (K + 2), ∑ t ∈ range d, ∑ i' ∈ range D, ∑ e ∈ range (K + 2),
        blockOf (List.replicate (n + 2) A) ([W2] ++ (List.replicate n (eyeMpo d) ++ [W0])) (List.replicate (n + 2) A)
          i i' b l l' e * A.v i r s * W.v b e s t * star (A.v i' r' t) := by
    refine sum_congr rfl fun j hj => sum_congr rfl fun s _ => sum_congr rfl fun b hb => sum_congr rfl fun t _ =>
      sum_congr rfl fun j' hj' => sum_congr rfl fun e he => ?_
    rw [i.v j (mem_range.mp hj) j' (mem_range.mp hj') b (mem_range.mp hb) l hl l' hl' e (mem_range.mp he), rep_cat]
  have q2 : ∑ i ∈ range D, ∑ s ∈ range d, ∑ i' ∈ range D, P.henvSite.v i i' l l' * A.v i r s * star (A.v i' r' s)
      = ∑ i ∈ range D, ∑ s ∈ range d, ∑ b ∈ range (K + 2), ∑ t ∈ range d, ∑ i' ∈ range D, ∑ e ∈ range (K + 2),
        blockOf (List.replicate (n + 2) A) (List.replicate (n + 2) W) (List.replicate (n + 2) A)
          i i' b l l' e * A.v i r s * (pick (K + 2) d).v b e s t * star (A.v i' r' t) := by
    refine sum_congr rfl fun j hj => sum_congr rfl fun s hs => ?_
    rw [sum_comm]
    have e1 : ∀ t, ∑ b ∈ range (K + 2), ∑ j' ∈ range D, ∑ e ∈ range (K + 2),
        blockOf (List.replicate (n + 2) A) (List.replicate (n + 2) W) (List.replicate (n + 2) A)
          j j' b l l' e * A.v j r s * (pick (K + 2) d).v b e s t * star (A.v j' r' t)
        = delta ℂ s t * ∑ j' ∈ range D, P.henvSite.v j j' l l' * A.v j r s * star (A.v j' r' t) := by
      intro t
      rw [sum_comm, mul_sum]
      refine sum_congr rfl fun j' hj' => ?_
      rw [hP.hev j (mem_range.mp hj) j' (mem_range.mp hj') l hl l' hl']
      have := pick_sum (B := K + 2) (by omega) d s t fun b e =>
        blockOf (List.replicate (n + 2) A) (List.replicate (n + 2) W) (List.replicate (n + 2) A) j j' b l l' e
      rw [show K + 2 - 1 = K + 1 by omega] at this
      rw [show ∀ x : ℂ, delta ℂ s t * (x * A.v j r s * star (A.v j' r' t))
        = x * delta ℂ s t * (A.v j r s * star (A.v j' r' t)) from fun x => by ring, ← this]
      simp only [sum_mul]
      refine sum_congr rfl fun b _ => sum_congr rfl fun e _ => by ring
    rw [sum_congr rfl fun t _ => e1 t, sum_delta_left (mem_range.mp hs)
      fun t => ∑ j' ∈ range D, P.henvSite.v j j' l l' * A.v j r s * star (A.v j' r' t)]
  rw [q1, q2, p1, p2, map_d hA hA, ← List.replicate_succ' (n := n + 2) (a := A), ← sumCfg_add]
  refine sumCfg_congr fun s hs => ?_
  rw [← sumCfg_add]
  refine sumCfg_congr fun t ht => ?_
  rw [← ring_mpo h h0r h0 h2l h2r h2 (cf_of hs) (cf_of ht)]
  ring

theorem bond_sum {D N d : ℕ} {As : List (Ten ℂ)} {C C' : Mat ℂ} (M : List ℕ → List ℕ → ℂ) :
    ∑ r' ∈ range D, ∑ l' ∈ range D, star (C'.v r' l') * (∑ r ∈ range D, ∑ l ∈ range D,
      (sumCfg (List.replicate N d) fun s => sumCfg (List.replicate N d) fun t =>
        chain As s l r * M s t * star (chain As t l' r')) * C.v r l)
    = sumCfg (List.replicate N d) fun s => sumCfg (List.replicate N d) fun t =>
        star (ringAmpC D As C' t) * M s t * ringAmpC D As C s := by
  simp only [← sumCfg_mul_right, ← sumCfg_sum, ← sumCfg_mul]
  refine sumCfg_congr fun s _ => sumCfg_congr fun t _ => ?_
  unfold ringAmpC
  rw [star_sum, sum_mul, sum_mul, sum_comm]
  refine sum_congr rfl fun l' _ => ?_
  rw [star_sum, sum_mul, sum_mul]
  refine sum_congr rfl fun r' _ => ?_
  simp only [mul_sum, star_mul']
  rw [sum_comm]
  refine sum_congr rfl fun l _ => sum_congr rfl fun r _ => by ring

/-! ## `checkH` -/

theorem glue_ok {D : ℕ} {E F : Four} {As Bs : List (Ten ℂ)} {Ws Us : List (Mpo ℂ)} (hE : IsBlk4 D E As Ws)
    (hF : IsBlk4 D F Bs Us) (hA : Linked D As D) (hW : MLinked 1 Ws 1) (h1 : As.length = Ws.length) :
    ∃ G, glue E F = .ok G ∧ IsBlk4 D G (As ++ Bs) (Ws ++ Us) := by
  refine ⟨_, if_pos ⟨by rw [hE.r, hF.l], by rw [hE.r', hF.l']⟩, hF.r, hF.r', hE.l, hE.l', ?_⟩
  intro r hr r' hr' l hl l' hl'
  rw [blockOf_append hA hA hW h1 h1 hl hl' (by omega)]
  simp only [hE.r, hE.r']
  refine sum_congr rfl fun q hq => sum_congr rfl fun q' hq' => ?_
  rw [mem_range] at hq hq'
  rw [sum_range_one, hE.v q hq q' hq' l hl l' hl', hF.v r hr r' hr' q hq q' hq']

theorem hLocal_ok {D d B : ℕ} {A : Ten ℂ} {R C : Mpo ℂ} (hA : Sq D d A) (hRl : R.l = 1) (hRr : R.r = B) (hRi : R.din = d)
    (hRo : R.dout = d) (hCl : C.l = B) (hCr : C.r = 1) (hCi : C.din = d) (hCo : C.dout = d) :
    ∃ G, hLocal A R C = .ok G ∧ IsBlk4 D G [A, A] [R, C] := by
  refine ⟨_, if_pos ⟨by rw [hA.l, hA.r], by rw [hRr, hCl], by rw [hA.d, hRi], by rw [hA.d, hRo], by rw [hA.d, hCi],
    by rw [hA.d, hCo]⟩, hA.r, hA.r, hA.l, hA.l, ?_⟩
  intro r hr r' hr' l hl l' hl'
  rw [show [A, A] = [A] ++ [A] from rfl, show [R, C] = [R] ++ [C] from rfl,
    blockOf_append (one_linked hA.l hA.r) (one_linked hA.l hA.r) (one_mlinked hRl hRr) rfl rfl hl hl' (by omega)]
  simp only [hA.r, hA.d, hRr]
  have e : ∀ q ∈ range D, ∀ q' ∈ range D, ∀ b ∈ range B,
      blockOf [A] [R] [A] q q' b l l' 0 * blockOf [A] [C] [A] r r' 0 q q' b
      = ∑ s ∈ range d, ∑ t ∈ range d, ∑ x ∈ range d, ∑ y ∈ range d,
        A.v l q s * R.v 0 b s t * star (A.v l' q' t) * A.v q r x * C.v b 0 x y * star (A.v q' r' y) := by
    intro q hq q' hq' b hb
    rw [mem_range] at *
    rw [blockOf_single (by rw [hA.r]; exact hq) (by rw [hA.r]; exact hq') (by rw [hRr]; exact hb),
      blockOf_single (by rw [hA.r]; exact hr) (by rw [hA.r]; exact hr') (by rw [hCr]; omega), hA.d]
    rw [sum_mul]
    refine sum_congr rfl fun s _ => ?_
    rw [sum_mul]
    refine sum_congr rfl fun t _ => ?_
    rw [mul_sum]
    refine sum_congr rfl fun x _ => ?_
    rw [mul_sum]
    refine sum_congr rfl fun y _ => by ring
  rw [sum_congr rfl fun q hq => sum_congr rfl fun q' hq' => sum_congr rfl fun b hb => e q hq q' hq' b hb]
  have h := Finset.sum_nbij' (s := range D ×ˢ range d ×ˢ range B ×ˢ range d ×ˢ range D ×ˢ range d ×ˢ range d)
    (t := range D ×ˢ range D ×ˢ range B ×ˢ range d ×ˢ range d ×ˢ range d ×ˢ range d)
    (f := fun (i, s, b, t, i', y, x) =>
      A.v l i s * R.v 0 b s t * star (A.v l' i' t) * A.v i r x * C.v b 0 x y * star (A.v i' r' y))
    (g := fun (i, i', b, s, t, x, y) =>
      A.v l i s * R.v 0 b s t * star (A.v l' i' t) * A.v i r x * C.v b 0 x y * star (A.v i' r' y))
    (fun (i, s, b, t, i', y, x) => (i, i', b, s, t, x, y)) (fun (i, i', b, s, t, x, y) => (i, s, b, t, i', y, x))
    (by simp; tauto) (by simp; tauto) (by simp) (by simp) (by simp)
  simpa only [Finset.sum_product] using h

/-- A row and a column of the MPO at the sites `n`, `n+1` of a chain. -/
def twoSite (d N n : ℕ) (R C : Mpo ℂ) : List (Mpo ℂ) :=
  List.replicate n (eyeMpo d) ++ ([R, C] ++ List.replicate (N - 2 - n) (eyeMpo d))

theorem twoSite_el {d N n : ℕ} {R C : Mpo ℂ} (hn : n + 2 ≤ N) (hCr : C.r = 1) {s t : List ℕ}
    (hs : Cf d N s) (ht : Cf d N t) {α β : ℂ} {L : Loc} {K : ℕ}
    (hv : ∀ x < d, ∀ x' < d, ∀ y < d, ∀ y' < d, ∑ b ∈ range R.r, R.v 0 b x x' * C.v b 0 y y'
      = α * (L.h.v x x' * delta ℂ y y') + ∑ k ∈ range K, (L.A k).v x x' * (L.B k).v y y' +
        β * (delta ℂ x x' * L.h.v y y')) :
    mchain (twoSite d N n R C) s t 0 0 = α * opEl (at1 d N n L.h) s t +
      ∑ k ∈ range K, opEl (at2 d N n (L.A k) (L.B k)) s t + β * opEl (at1 d N (n + 1) L.h) s t := by
  obtain ⟨p, w, q, rfl, hp, hw, hq⟩ := hs.split (n := n) (k := 2) (by omega)
  obtain ⟨p', w', q', rfl, hp', hw', hq'⟩ := ht.split (n := n) (k := 2) (by omega)
  obtain ⟨y, w, rfl, hy, hw⟩ := hw.exists_cons
  obtain ⟨y', w', rfl, hy', hw'⟩ := hw'.exists_cons
  obtain ⟨z, w, rfl, hz, hw⟩ := hw.exists_cons
  obtain ⟨z', w', rfl, hz', hw'⟩ := hw'.exists_cons
  obtain rfl := hw.zero
  obtain rfl := hw'.zero
  have m : mchain (twoSite d N n R C) (p ++ [y, z] ++ q) (p' ++ [y', z'] ++ q') 0 0
      = opEl (List.replicate n (eyeK ℂ d)) p p' * ((∑ b ∈ range R.r, R.v 0 b y y' * C.v b 0 z z') *
        opEl (List.replicate (N - 2 - n) (eyeK ℂ d)) q q') := by
    unfold twoSite
    rw [List.append_assoc, List.append_assoc,
      mchain_append (mlinked_replicate (B := 1) rfl rfl n) p p' _ _ (by simpa using hp.1) (by simpa using hp'.1) (by omega),
      sum_range_one, mchain_eye p p' hp.1 hp'.1]
    simp only [List.cons_append, List.nil_append, mchain]
    rw [hCr]
    simp only [sum_range_one]
    rw [mchain_eye q q' (by rw [hq.1]; omega) (by rw [hq'.1]; omega), sum_mul]
    congr 1
    refine sum_congr rfl fun b _ => by ring
  have a1 : opEl (at1 d N n L.h) (p ++ [y, z] ++ q) (p' ++ [y', z'] ++ q')
      = opEl (List.replicate n (eyeK ℂ d)) p p' * (L.h.v y y' * delta ℂ z z' *
        opEl (List.replicate (N - 2 - n) (eyeK ℂ d)) q q') := by
    simp only [at1, List.append_assoc, List.cons_append, List.nil_append]
    rw [opEl_append (by simp [hp.1]) (by simp [hp'.1]), show N - 1 - n = N - 2 - n + 1 by omega, List.replicate_succ]
    simp only [opEl, eyeK]
    ring
  have a2 : ∀ k, opEl (at2 d N n (L.A k) (L.B k)) (p ++ [y, z] ++ q) (p' ++ [y', z'] ++ q')
      = opEl (List.replicate n (eyeK ℂ d)) p p' * ((L.A k).v y y' * (L.B k).v z z' *
        opEl (List.replicate (N - 2 - n) (eyeK ℂ d)) q q') := by
    intro k
    simp only [at2, List.append_assoc, List.cons_append, List.nil_append]
    rw [opEl_append (by simp [hp.1]) (by simp [hp'.1])]
    simp only [opEl]
    ring
  have a3 : opEl (at1 d N (n + 1) L.h) (p ++ [y, z] ++ q) (p' ++ [y', z'] ++ q')
      = opEl (List.replicate n (eyeK ℂ d)) p p' * (delta ℂ y y' * L.h.v z z' *
        opEl (List.replicate (N - 2 - n) (eyeK ℂ d)) q q') := by
    simp only [at1, List.append_assoc, List.cons_append, List.nil_append]
    rw [List.replicate_succ', List.append_assoc, opEl_append (by simp [hp.1]) (by simp [hp'.1]),
      show N - 1 - (n + 1) = N - 2 - n by omega]
    simp only [List.cons_append, List.nil_append, opEl, eyeK]
    ring
  rw [m, a1, a3, sum_congr rfl fun k _ => a2 k, hv y hy y' hy' z hz z' hz', ← mul_sum, ← sum_mul]
  ring

/-- `E` is an operator `M` between the states of a chain with open bonds. -/
structure IsOp (D d N : ℕ) (A : Ten ℂ) (E : Four) (M : List ℕ → List ℕ → ℂ) : Prop where
  r : E.r = D
  r' : E.r' = D
  l : E.l = D
  l' : E.l' = D
  v : ∀ r < D, ∀ r' < D, ∀ l < D, ∀ l' < D, E.v r r' l l' = sumCfg (List.replicate N d) fun s =>
    sumCfg (List.replicate N d) fun t => chain (List.replicate N A) s l r * M s t *
      star (chain (List.replicate N A) t l' r')

theorem isOp_of {D d N : ℕ} {A : Ten ℂ} {E : Four} {Ws : List (Mpo ℂ)} {M : List ℕ → List ℕ → ℂ} (hA : Sq D d A)
    (h : IsBlk4 D E (List.replicate N A) Ws) (hM : ∀ s t, Cf d N s → Cf d N t → mchain Ws s t 0 0 = M s t) :
    IsOp D d N A E M := by
  refine ⟨h.r, h.r', h.l, h.l', fun r hr r' hr' l hl l' hl' => ?_⟩
  rw [h.v r hr r' hr' l hl l' hl']
  unfold blockOf
  rw [List.map_replicate, hA.d]
  refine sumCfg_congr fun s hs => sumCfg_congr fun t ht => ?_
  rw [hM s t (cf_of hs) (cf_of ht)]

theorem add_ok {D d N : ℕ} {A : Ten ℂ} {E F : Four} {M M' : List ℕ → List ℕ → ℂ} (h : IsOp D d N A E M)
    (h' : IsOp D d N A F M') : ∃ G, Four.add E F = .ok G ∧ IsOp D d N A G fun s t => M s t + M' s t := by
  refine ⟨_, if_pos ⟨by rw [h.r, h'.r], by rw [h.r', h'.r'], by rw [h.l, h'.l], by rw [h.l', h'.l']⟩, h.r, h.r', h.l,
    h.l', fun r hr r' hr' l hl l' hl' => ?_⟩
  dsimp only
  rw [h.v r hr r' hr' l hl l' hl', h'.v r hr r' hr' l hl l' hl', ← sumCfg_add]
  refine sumCfg_congr fun s _ => ?_
  rw [← sumCfg_add]
  refine sumCfg_congr fun t _ => by ring

/-- The two-site term that `checkH` puts at the sites `n`, `n+1`. -/
noncomputable def checkEl (d K N n : ℕ) (L : Loc) (s t : List ℕ) : ℂ :=
  (if n = 0 then 1 else 1 / 2) * opEl (at1 d N n L.h) s t + ∑ k ∈ range K, opEl (at2 d N n (L.A k) (L.B k)) s t +
    (if n + 2 = N then 1 else 1 / 2) * opEl (at1 d N (n + 1) L.h) s t

/-- Shapes and entries of the boundary tensors used by `checkH`. -/
structure RowsOk (d K : ℕ) (W : Mpo ℂ) (g : Eng) : Prop where
  row : g.row.l = 1 ∧ g.row.r = K + 2 ∧ g.row.din = d ∧ g.row.dout = d ∧ ∀ c s t, g.row.v 0 c s t = W.v (K + 1) c s t
  row3 : g.row3.l = 1 ∧ g.row3.r = K + 2 ∧ g.row3.din = d ∧ g.row3.dout = d ∧
    ∀ c s t, g.row3.v 0 c s t = if c = 0 then W.v (K + 1) c s t / 2 else W.v (K + 1) c s t
  col : g.col.l = K + 2 ∧ g.col.r = 1 ∧ g.col.din = d ∧ g.col.dout = d ∧ ∀ b s t, g.col.v b 0 s t = W.v b 0 s t
  col3 : g.col3.l = K + 2 ∧ g.col3.r = 1 ∧ g.col3.din = d ∧ g.col3.dout = d ∧
    ∀ b s t, g.col3.v b 0 s t = if b = K + 1 then W.v b 0 s t / 2 else W.v b 0 s t

theorem rows_ok {d K : ℕ} {A : Ten ℂ} {W : Mpo ℂ} {L : Loc} (h : NNBulk d K W L) {Ws : List (Mpo ℂ)} {N : ℕ} {g : Eng}
    (hg : initPeriodic [A] (some false) (W :: Ws) N = .ok g) : RowsOk d K W g := by
  unfold initPeriodic at hg
  rw [if_neg (by simp)] at hg
  dsimp only at hg
  rw [if_neg (by rw [h.l, h.r]; omega)] at hg
  obtain rfl := Except.ok.inj hg
  refine ⟨⟨rfl, h.r, h.din, h.dout, fun c s t => ?_⟩, ⟨rfl, h.r, h.din, h.dout, fun c s t => ?_⟩,
    ⟨h.l, rfl, h.din, h.dout, fun b s t => rfl⟩, h.l, rfl, h.din, h.dout, fun b s t => ?_⟩
  · simp only [h.l]; rfl
  · simp only [h.l]; rfl
  · simp only [h.l]; rfl

/-- The two-site operator of a row and a column of a nearest-neighbour MPO with weights on the on-site terms. -/
theorem row_col {d K : ℕ} {W R C : Mpo ℂ} {L : Loc} (h : NNBulk d K W L) {α β : ℂ} (hRr : R.r = K + 2)
    (hR : ∀ s t, R.v 0 0 s t = α * W.v (K + 1) 0 s t) (hR' : ∀ c s t, 0 < c → R.v 0 c s t = W.v (K + 1) c s t)
    (hC : ∀ s t, C.v (K + 1) 0 s t = β * W.v (K + 1) 0 s t) (hC' : ∀ b s t, b < K + 1 → C.v b 0 s t = W.v b 0 s t) :
    ∀ x < d, ∀ x' < d, ∀ y < d, ∀ y' < d, ∑ b ∈ range R.r, R.v 0 b x x' * C.v b 0 y y'
      = α * (L.h.v x x' * delta ℂ y y') + ∑ k ∈ range K, (L.A k).v x x' * (L.B k).v y y' +
        β * (delta ℂ x x' * L.h.v y y') := by
  intro x hx x' hx' y hy y' hy'
  rw [hRr, sum_ends, hR, hC, hC' 0 _ _ (by omega), hR' (K + 1) _ _ (by omega), h.h x hx x' hx', h.h y hy y' hy',
    h.top y hy y' hy', h.one x hx x' hx']
  have e : ∑ k ∈ range K, R.v 0 (k + 1) x x' * C.v (k + 1) 0 y y' = ∑ k ∈ range K, (L.A k).v x x' * (L.B k).v y y' := by
    refine sum_congr rfl fun k hk => ?_
    have hk := mem_range.mp hk
    rw [hR' _ _ _ (by omega), hC' _ _ _ (by omega), h.A k hk x hx x' hx', h.B k hk y hy y' hy']
  rw [e]
  ring

theorem two_linked {D d : ℕ} {A : Ten ℂ} (hA : Sq D d A) : Linked D [A, A] D :=
  ⟨hA.l, by rw [hA.r]; exact ⟨hA.l, hA.r⟩⟩

theorem check_term {D d K N n : ℕ} {g : Eng} {W : Mpo ℂ} {L : Loc} (hA : Sq D d g.A) (h : NNBulk d K W L)
    (hr : RowsOk d K W g) (hN : 3 ≤ N) (hn : n + 2 ≤ N) {hl hm hrr : Four} (e1 : hLocal g.A g.row g.col3 = .ok hl)
    (e2 : hLocal g.A g.row3 g.col3 = .ok hm) (e3 : hLocal g.A g.row3 g.col = .ok hrr) :
    ∃ R, checkTerm g.A hl hm hrr N n = .ok (some R) ∧ IsOp D d N g.A R (checkEl d K N n L) := by
  obtain ⟨⟨rl, rr, ri, ro, rv⟩, ⟨r3l, r3r, r3i, r3o, r3v⟩, ⟨cl, cr, ci, co, cv⟩, c3l, c3r, c3i, c3o, c3v⟩ := hr
  obtain ⟨hl', e1', i1⟩ := hLocal_ok hA rl rr ri ro c3l c3r c3i c3o
  obtain ⟨hm', e2', i2⟩ := hLocal_ok hA r3l r3r r3i r3o c3l c3r c3i c3o
  obtain ⟨hr', e3', i3⟩ := hLocal_ok hA r3l r3r r3i r3o cl cr ci co
  obtain rfl := Except.ok.inj (e1.symm.trans e1')
  obtain rfl := Except.ok.inj (e2.symm.trans e2')
  obtain rfl := Except.ok.inj (e3.symm.trans e3')
  unfold checkTerm
  by_cases c1 : 0 < n ∧ n + 2 < N
  · obtain ⟨E, f1, j1⟩ := empty_pow hA (n := n) (by omega)
    obtain ⟨F, f2, j2⟩ := empty_pow hA (n := N - n - 2) (by omega)
    obtain ⟨G, f3, j3⟩ := glue_ok j1 i2 (linked_replicate hA.l hA.r n) (mlinked_replicate (B := 1) rfl rfl n) (by simp)
    obtain ⟨R, f4, j4⟩ := glue_ok j3 j2
      (linked_append.mpr ⟨D, linked_replicate hA.l hA.r n, two_linked hA⟩)
      (mlinked_append.mpr ⟨1, mlinked_replicate (B := 1) rfl rfl n, ⟨r3l, by rw [r3r]; exact ⟨c3l, c3r⟩⟩⟩) (by simp)
    rw [if_pos c1, f1, f2]
    simp only [f3, f4]
    refine ⟨R, rfl, isOp_of hA (Ws := twoSite d N n g.row3 g.col3) ?_ ?_⟩
    · rw [show List.replicate N g.A = List.replicate n g.A ++ [g.A, g.A] ++ List.replicate (N - n - 2) g.A by
        rw [show [g.A, g.A] = List.replicate 2 g.A from rfl, List.replicate_append_replicate,
          List.replicate_append_replicate]; congr 1; omega]
      unfold twoSite
      rw [← List.append_assoc, show N - 2 - n = N - n - 2 by omega]
      exact j4
    · intro s t hs ht
      rw [twoSite_el hn c3r hs ht (α := 1 / 2) (β := 1 / 2) (L := L) (K := K)]
      · unfold checkEl; rw [if_neg (by omega), if_neg (by omega)]
      · refine row_col h r3r (fun s t => ?_) (fun c s t hc => ?_) (fun s t => ?_) (fun b s t hb => ?_)
        · rw [r3v, if_pos rfl]; ring
        · rw [r3v, if_neg (by omega)]
        · rw [c3v, if_pos rfl]; ring
        · rw [c3v, if_neg (by omega)]
  · rw [if_neg c1]
    by_cases c2 : n = 0
    · subst c2
      obtain ⟨F, f2, j2⟩ := empty_pow hA (n := N - 0 - 2) (by omega)
      obtain ⟨R, f4, j4⟩ := glue_ok i1 j2 (two_linked hA) ⟨rl, by rw [rr]; exact ⟨c3l, c3r⟩⟩ (by simp)
      rw [if_pos ⟨rfl, by omega⟩, f2]
      simp only [f4]
      refine ⟨R, rfl, isOp_of hA (Ws := twoSite d N 0 g.row g.col3) ?_ ?_⟩
      · rw [show List.replicate N g.A = [g.A, g.A] ++ List.replicate (N - 0 - 2) g.A by
          rw [show [g.A, g.A] = List.replicate 2 g.A from rfl, List.replicate_append_replicate]; congr 1; omega]
        unfold twoSite
        rw [List.replicate_zero, List.nil_append, show N - 2 - 0 = N - 0 - 2 by omega]
        exact j4
      · intro s t hs ht
        rw [twoSite_el hn c3r hs ht (α := 1) (β := 1 / 2) (L := L) (K := K)]
        · unfold checkEl; rw [if_pos rfl, if_neg (by omega)]
        · refine row_col h rr (fun s t => ?_) (fun c s t hc => ?_) (fun s t => ?_) (fun b s t hb => ?_)
          · rw [rv]; ring
          · rw [rv]
          · rw [c3v, if_pos rfl]; ring
          · rw [c3v, if_neg (by omega)]
    · obtain ⟨E, f1, j1⟩ := empty_pow hA (n := n) (by omega)
      obtain ⟨R, f3, j3⟩ := glue_ok j1 i3 (linked_replicate hA.l hA.r n) (mlinked_replicate (B := 1) rfl rfl n) (by simp)
      rw [if_neg (by omega), if_pos ⟨by omega, by omega⟩, f1]
      simp only [f3]
      refine ⟨R, rfl, isOp_of hA (Ws := twoSite d N n g.row3 g.col) ?_ ?_⟩
      · rw [show List.replicate N g.A = List.replicate n g.A ++ [g.A, g.A] by
          rw [show [g.A, g.A] = List.replicate 2 g.A from rfl, List.replicate_append_replicate]; congr 1; omega]
        unfold twoSite
        rw [show N - 2 - n = 0 by omega, List.replicate_zero, List.append_nil]
        exact j3
      · intro s t hs ht
        rw [twoSite_el hn cr hs ht (α := 1 / 2) (β := 1) (L := L) (K := K)]
        · unfold checkEl; rw [if_neg (by omega), if_pos (by omega)]
        · refine row_col h r3r (fun s t => ?_) (fun c s t hc => ?_) (fun s t => ?_) (fun b s t hb => ?_)
          · rw [r3v, if_pos rfl]; ring
          · rw [r3v, if_neg (by omega)]
          · rw [cv]; ring
          · rw [cv]

theorem check_loop {D d K N : ℕ} {g : Eng} {W : Mpo ℂ} {L : Loc} (hA : Sq D d g.A) (h : NNBulk d K W L)
    (hr : RowsOk d K W g) (hN : 3 ≤ N) {hl hm hrr : Four} (e1 : hLocal g.A g.row g.col3 = .ok hl)
    (e2 : hLocal g.A g.row3 g.col3 = .ok hm) (e3 : hLocal g.A g.row3 g.col = .ok hrr) :
    ∀ (ns : List ℕ) (H : Four) (M : List ℕ → List ℕ → ℂ), (∀ n ∈ ns, n < N) → IsOp D d N g.A H M →
    ∃ H', checkLoop g.A hl hm hrr N ns H = .ok H' ∧ IsOp D d N g.A H' fun s t => M s t +
      (ns.map fun n => if n + 2 ≤ N then checkEl d K N n L s t else 0).sum
  | [], H, M, _, hH => ⟨H, rfl, by simpa using hH⟩
  | n :: ns, H, M, hns, hH => by
    unfold checkLoop
    by_cases c : n + 2 ≤ N
    · obtain ⟨R, f1, j1⟩ := check_term (L := L) hA h hr hN c e1 e2 e3
      obtain ⟨H1, f2, j2⟩ := add_ok hH j1
      obtain ⟨H2, f3, j3⟩ := check_loop hA h hr hN e1 e2 e3 ns H1 _ (fun m hm => hns m (by simp [hm])) j2
      simp only [f1, f2]
      refine ⟨H2, f3, ?_⟩
      simp only [List.map_cons, List.sum_cons, if_pos c, ← add_assoc]
      exact j3
    · have f1 : checkTerm g.A hl hm hrr N n = .ok none := by
        unfold checkTerm
        rw [if_neg (by omega), if_neg (by omega), if_neg (by omega)]
      obtain ⟨H2, f3, j3⟩ := check_loop hA h hr hN e1 e2 e3 ns H M (fun m hm => hns m (by simp [hm])) hH
      simp only [f1]
      refine ⟨H2, f3, ?_⟩
      simp only [List.map_cons, List.sum_cons, if_neg c, zero_add]
      exact j3

theorem half_sum (m : ℕ) (a : ℕ → ℂ) :
    ∑ n ∈ range (m + 2), ((if n = 0 then 1 else 1 / 2) * a n) + ∑ n ∈ range (m + 2),
      ((if n + 2 = m + 3 then 1 else 1 / 2) * a (n + 1)) = ∑ n ∈ range (m + 3), a n := by
  rw [sum_range_succ' _ (m + 1), sum_range_succ (fun n => (if n + 2 = m + 3 then (1 : ℂ) else 1 / 2) * a (n + 1)) (m + 1),
    sum_range_succ' a (m + 2), sum_range_succ (fun n => a (n + 1)) (m + 1)]
  have e1 : ∑ n ∈ range (m + 1), ((if n + 1 = 0 then (1 : ℂ) else 1 / 2) * a (n + 1))
      = ∑ n ∈ range (m + 1), 1 / 2 * a (n + 1) := sum_congr rfl fun n _ => by rw [if_neg (by omega)]
  have e2 : ∑ n ∈ range (m + 1), ((if n + 2 = m + 3 then (1 : ℂ) else 1 / 2) * a (n + 1))
      = ∑ n ∈ range (m + 1), 1 / 2 * a (n + 1) := sum_congr rfl fun n hn => by
    rw [if_neg (by rw [mem_range] at hn; omega)]
  rw [e1, e2, if_pos rfl, if_pos (by omega), ← mul_sum]
  ring

theorem list_sum (f : ℕ → ℂ) (n : ℕ) : ((List.range n).map f).sum = ∑ i ∈ range n, f i := by
  induction n with
  | zero => simp
  | succ n ih => rw [List.range_succ, List.map_append, List.sum_append, ih, sum_range_succ]; simp

theorem check_sum {d K m : ℕ} (L : Loc) (s t : List ℕ) :
    ((List.range (m + 3)).map fun n => if n + 2 ≤ m + 3 then checkEl d K (m + 3) n L s t else 0).sum
      = hamEl d K (m + 3) (fun _ => L) s t := by
  rw [list_sum, sum_range_succ, if_neg (by omega), add_zero,
    sum_congr rfl fun n hn => if_pos (show n + 2 ≤ m + 3 by rw [mem_range] at hn; omega)]
  simp only [checkEl, sum_add_distrib]
  have := half_sum m fun n => opEl (at1 d (m + 3) n L.h) s t
  unfold hamEl
  rw [← this, show m + 3 - 1 = m + 2 by omega]
  ring

/-! ## C97 -/

/-- C97: for a nearest-neighbour MPO on a ring of at least four sites, the constructor and `getHeffNeff` succeed and
`matvec` applies the Hamiltonian of the ring: its matrix elements between the states obtained from `N-1` copies of the
tensor of the engine and an arbitrary last tensor. -/
theorem C97_matvec {D d K N : ℕ} {A : Ten ℂ} {W : Mpo ℂ} {L : Loc} (hA : Sq D d A) (h : NNBulk d K W L) (hN : 4 ≤ N)
    (Ws : List (Mpo ℂ)) : ∃ g P, initPeriodic [A] (some false) (W :: Ws) N = .ok g ∧ getHeffNeff g = .ok P ∧
      ∀ X Y, Sq D d X → Sq D d Y → ∃ V, matvec P.heffSite P.henvSite W X = .ok V ∧ tdot Y V = .ok (ringHam D d K N L
        (List.replicate (N - 1) A ++ [X]) (List.replicate (N - 1) A ++ [Y])) := by
  obtain ⟨n, rfl⟩ : ∃ n, N = n + 3 := ⟨N - 3, by omega⟩
  obtain ⟨g, hg, rfl, rfl, gN, ⟨a1, a2, a3, a4, a5⟩, b1, b2, b3, b4, b5⟩ := init_ok (A := A) h Ws (n + 3)
  obtain ⟨P, hP, i⟩ := eff_ok hA h (by omega) gN a1 a2 a3 a4 b1 b2 b3 b4
  refine ⟨g, P, hg, hP, fun X Y hX hY => ?_⟩
  rw [show n + 3 - 1 = n + 2 by omega]
  exact matvec_ok hA h a1 a2 a5 b1 b2 b5 i hX hY

/-- C97: `gram` with the identity gives the overlap of the two states. -/
theorem C97_gram {D d K N : ℕ} {A : Ten ℂ} {W : Mpo ℂ} {L : Loc} (hA : Sq D d A) (h : NNBulk d K W L) (hN : 4 ≤ N)
    (Ws : List (Mpo ℂ)) : ∃ g P, initPeriodic [A] (some false) (W :: Ws) N = .ok g ∧ getHeffNeff g = .ok P ∧
      ∀ X Y, Sq D d X → Sq D d Y → ∃ V, gram P.neffSite (eyeMpo d) X = .ok V ∧ tdot Y V = .ok (ringDot D d N
        (List.replicate (N - 1) A ++ [X]) (List.replicate (N - 1) A ++ [Y])) := by
  obtain ⟨n, rfl⟩ : ∃ n, N = n + 3 := ⟨N - 3, by omega⟩
  obtain ⟨g, hg, rfl, rfl, gN, ⟨a1, a2, a3, a4, a5⟩, b1, b2, b3, b4, b5⟩ := init_ok (A := A) h Ws (n + 3)
  obtain ⟨P, hP, i⟩ := eff_ok hA h (by omega) gN a1 a2 a3 a4 b1 b2 b3 b4
  refine ⟨g, P, hg, hP, fun X Y hX hY => ?_⟩
  rw [show n + 3 - 1 = n + 2 by omega]
  exact gram_ok hA h i hX hY

/-- C97: the energy and the norm as the methods compute them, `tensordot(conj(mps),matvec(mps))` and
`trace(reshape(Neffbond))`, are `⟨ψ|H|ψ⟩` and `⟨ψ|ψ⟩` of the translation invariant state on the ring. -/
theorem C97_energy {D d K N : ℕ} {A : Ten ℂ} {W : Mpo ℂ} {L : Loc} (hA : Sq D d A) (h : NNBulk d K W L) (hN : 4 ≤ N)
    (Ws : List (Mpo ℂ)) : ∃ g P V, initPeriodic [A] (some false) (W :: Ws) N = .ok g ∧ getHeffNeff g = .ok P ∧
      matvec P.heffSite P.henvSite W A = .ok V ∧
      tdot A V = .ok (ringHam D d K N L (List.replicate N A) (List.replicate N A)) ∧
      traceFour P.neffBond = ringDot D d N (List.replicate N A) (List.replicate N A) := by
  obtain ⟨n, rfl⟩ : ∃ n, N = n + 3 := ⟨N - 3, by omega⟩
  obtain ⟨g, hg, rfl, rfl, gN, ⟨a1, a2, a3, a4, a5⟩, b1, b2, b3, b4, b5⟩ := init_ok (A := A) h Ws (n + 3)
  obtain ⟨P, hP, i⟩ := eff_ok hA h (by omega) gN a1 a2 a3 a4 b1 b2 b3 b4
  obtain ⟨V, hV, e⟩ := matvec_ok hA h a1 a2 a5 b1 b2 b5 i hA hA
  refine ⟨g, P, V, hg, hP, hV, ?_, norm_ok hA i.nb⟩
  rw [e, ← List.replicate_succ']

/-- C97: the effective operators of the bond: `Heffbond+Henvbond` applied to a matrix on the bond between the last and
the first site is the Hamiltonian of the ring, and `Neffbond` is the norm. -/
theorem C97_bond {D d K N : ℕ} {A : Ten ℂ} {W : Mpo ℂ} {L : Loc} (hA : Sq D d A) (h : NNBulk d K W L) (hN : 4 ≤ N)
    (Ws : List (Mpo ℂ)) : ∃ g P Q, initPeriodic [A] (some false) (W :: Ws) N = .ok g ∧ getHeffNeff g = .ok P ∧
      Four.add P.heffBond P.henvBond = .ok Q ∧ ∀ C C' : Mat ℂ, C.r = D → C.c = D → ∃ V V', matvecbond Q C = .ok V ∧
        V.r = D ∧ V.c = D ∧ matvecbond P.neffBond C = .ok V' ∧ V'.r = D ∧ V'.c = D ∧
        (∑ i ∈ range D, ∑ j ∈ range D, star (C'.v i j) * V.v i j
          = sumCfg (List.replicate N d) fun s => sumCfg (List.replicate N d) fun t =>
            star (ringAmpC D (List.replicate N A) C' t) * perEl d K N L s t * ringAmpC D (List.replicate N A) C s) ∧
        ∑ i ∈ range D, ∑ j ∈ range D, star (C'.v i j) * V'.v i j
          = sumCfg (List.replicate N d) fun s =>
            star (ringAmpC D (List.replicate N A) C' s) * ringAmpC D (List.replicate N A) C s := by
  obtain ⟨n, rfl⟩ : ∃ n, N = n + 3 := ⟨N - 3, by omega⟩
  obtain ⟨g, hg, rfl, rfl, gN, ⟨a1, a2, a3, a4, a5⟩, b1, b2, b3, b4, b5⟩ := init_ok (A := A) h Ws (n + 3)
  obtain ⟨P, hP, i⟩ := eff_ok hA h (by omega) gN a1 a2 a3 a4 b1 b2 b3 b4
  obtain ⟨Q, hQ, q1, q2, q3, q4, qv⟩ := bond_v hA h a1 a2 a5 b1 b2 b5 i
  have nb := isOp_of hA i.nb (M := fun s t => if t = s then 1 else 0) fun s t hs ht => by
    rw [mchain_eye s t hs.1 ht.1, opEl_eye d _ s t hs.1 ht.1]; simp only [eq_comm]
  refine ⟨g, P, Q, hg, hP, hQ, fun C C' hr hc => ⟨_, _, if_pos ⟨by rw [hr, q1], by rw [hc, q1], by rw [q3, q1],
    by rw [q2, q1], by rw [q4, q1]⟩, q2, q4, if_pos ⟨by rw [hr, nb.r], by rw [hc, nb.r], by rw [nb.l, nb.r],
    by rw [nb.r', nb.r], by rw [nb.l', nb.r]⟩, nb.r', nb.l', ?_, ?_⟩⟩
  · rw [← bond_sum]
    dsimp only
    rw [hr, hc]
    refine sum_congr rfl fun r' hr' => sum_congr rfl fun l' hl' => ?_
    congr 1
    refine sum_congr rfl fun r hr => sum_congr rfl fun l hl => ?_
    rw [qv r (mem_range.mp hr) r' (mem_range.mp hr') l (mem_range.mp hl) l' (mem_range.mp hl')]
  · have e := bond_sum (D := D) (N := n + 3) (d := d) (As := List.replicate (n + 3) g.A) (C := C) (C' := C')
      (fun s t => if t = s then 1 else 0)
    have e2 : (sumCfg (List.replicate (n + 3) d) fun s => sumCfg (List.replicate (n + 3) d) fun t =>
        star (ringAmpC D (List.replicate (n + 3) g.A) C' t) * (if t = s then 1 else 0) *
          ringAmpC D (List.replicate (n + 3) g.A) C s)
        = sumCfg (List.replicate (n + 3) d) fun s =>
            star (ringAmpC D (List.replicate (n + 3) g.A) C' s) * ringAmpC D (List.replicate (n + 3) g.A) C s := by
      refine sumCfg_congr fun s hs => ?_
      rw [← sumCfg_if (s := s) hs fun t => star (ringAmpC D (List.replicate (n + 3) g.A) C' t) *
        ringAmpC D (List.replicate (n + 3) g.A) C s]
      refine sumCfg_congr fun t _ => ?_
      split <;> ring
    rw [← e2, ← e]
    dsimp only
    rw [hr, hc]
    refine sum_congr rfl fun r' hr' => sum_congr rfl fun l' hl' => ?_
    congr 1
    refine sum_congr rfl fun r hr => sum_congr rfl fun l hl => ?_
    rw [nb.v r (mem_range.mp hr) r' (mem_range.mp hr') l (mem_range.mp hl) l' (mem_range.mp hl')]

/-- C97: `checkH(M)` is the Hamiltonian of an open chain of `M ≥ 3` sites, all bonds of the state open. -/
theorem C97_checkH {D d K N M : ℕ} {A : Ten ℂ} {W : Mpo ℂ} {L : Loc} (hA : Sq D d A) (h : NNBulk d K W L) (hM : 3 ≤ M)
    (Ws : List (Mpo ℂ)) : ∃ g H, initPeriodic [A] (some false) (W :: Ws) N = .ok g ∧ checkH g M = .ok H ∧
      IsOp D d M A H (hamEl d K M fun _ => L) := by
  obtain ⟨m, rfl⟩ : ∃ m, M = m + 3 := ⟨M - 3, by omega⟩
  obtain ⟨g, hg, rfl, -⟩ := init_ok (A := A) h Ws N
  have r := rows_ok h hg
  obtain ⟨⟨rl, rr, ri, ro, rv⟩, ⟨r3l, r3r, r3i, r3o, r3v⟩, ⟨cl, cr, ci, co, cv⟩, c3l, c3r, c3i, c3o, c3v⟩ := r
  obtain ⟨hl, e1, i1⟩ := hLocal_ok hA rl rr ri ro c3l c3r c3i c3o
  obtain ⟨hm, e2, i2⟩ := hLocal_ok hA r3l r3r r3i r3o c3l c3r c3i c3o
  obtain ⟨hr, e3, i3⟩ := hLocal_ok hA r3l r3r r3i r3o cl cr ci co
  obtain ⟨H, e4, i4⟩ := check_loop (L := L) hA h (rows_ok h hg) (show 3 ≤ m + 3 by omega) e1 e2 e3 (List.range (m + 3))
    ⟨hm.r, hm.r', hm.l, hm.l', fun _ _ _ _ => 0⟩ (fun _ _ => 0) (by simp)
    ⟨i2.r, i2.r', i2.l, i2.l', fun r _ r' _ l _ l' _ => by simp [sumCfg_zero]⟩
  refine ⟨g, H, hg, by simp only [checkH, e1, e2, e3, e4], ?_⟩
  convert i4 using 1
  funext s t
  rw [check_sum, zero_add]

/-- C97: the test that is commented out at lib/mpslib/engines.py:1534-1535: `Henvsite` is `checkH(N-1)`. -/
theorem C97_henv {D d K N : ℕ} {A : Ten ℂ} {W : Mpo ℂ} {L : Loc} (hA : Sq D d A) (h : NNBulk d K W L) (hN : 4 ≤ N)
    (Ws : List (Mpo ℂ)) : ∃ g P H, initPeriodic [A] (some false) (W :: Ws) N = .ok g ∧ getHeffNeff g = .ok P ∧
      checkH g (N - 1) = .ok H ∧
      ∀ r < D, ∀ r' < D, ∀ l < D, ∀ l' < D, P.henvSite.v r r' l l' = H.v r r' l l' := by
  obtain ⟨g', H, hg', hH, i⟩ := C97_checkH (N := N) hA h (show 3 ≤ N - 1 by omega) Ws
  obtain ⟨n, rfl⟩ : ∃ n, N = n + 3 := ⟨N - 3, by omega⟩
  obtain ⟨g, hg, rfl, rfl, gN, ⟨a1, a2, a3, a4, a5⟩, b1, b2, b3, b4, b5⟩ := init_ok (A := A) h Ws (n + 3)
  obtain rfl := Except.ok.inj (hg.symm.trans hg')
  obtain ⟨P, hP, j⟩ := eff_ok hA h (by omega) gN a1 a2 a3 a4 b1 b2 b3 b4
  refine ⟨g, P, H, hg, hP, hH, fun r hr r' hr' l hl l' hl' => ?_⟩
  rw [j.hev r hr r' hr' l hl l' hl', i.v r hr r' hr' l hl l' hl']
  unfold blockOf
  rw [List.map_replicate, hA.d, show n + 3 - 1 = n + 2 by omega]
  refine sumCfg_congr fun s hs => sumCfg_congr fun t ht => ?_
  rw [(mchain_bulk h (n + 1) s t (cf_of hs) (cf_of ht)).2]

/-! ## Where the code differs -/

/-- An isometric tensor `diag(1,-1)` with one physical state. -/
def zTen : Ten ℂ := ⟨2, 2, 1, fun i j _ => if i = j then (if i = 0 then 1 else -1) else 0⟩

/-- The Hamiltonian `Σ_n 1`. -/
def oneMpo : Mpo ℂ := ⟨2, 2, 1, 1, fun b c _ _ => if c ≤ b then 1 else 0⟩

def oneLoc : Loc := ⟨eyeK ℂ 1, fun _ => eyeK ℂ 1, fun _ => eyeK ℂ 1⟩

theorem oneMpo_bulk : NNBulk 1 0 oneMpo oneLoc := by
  refine ⟨rfl, rfl, rfl, rfl, ?_, ?_, ?_, ?_, ?_, ?_⟩
  · intro s hs t ht; obtain rfl : s = 0 := by omega
    obtain rfl : t = 0 := by omega
    simp [oneMpo]
  · intro k hk; omega
  · intro s hs t ht; obtain rfl : s = 0 := by omega
    obtain rfl : t = 0 := by omega
    simp [oneMpo, oneLoc, eyeK]
  · intro k hk; omega
  · intro s hs t ht; obtain rfl : s = 0 := by omega
    obtain rfl : t = 0 := by omega
    simp [oneMpo]
  · intro b hb c hc s hs t ht
    simp [oneMpo]; omega

theorem zTen_sq : Sq 2 1 zTen := ⟨rfl, rfl, rfl⟩

/-- On a ring of three sites `empty_pow(N-3)` returns one transfer matrix instead of the identity: for the isometric
tensor `diag(1,-1)`, whose state on the ring vanishes, and `H = 3`, the energy comes out as `4`. -/
theorem C97_violated_three : ∃ g P V, initPeriodic [zTen] (some false) [oneMpo] 3 = .ok g ∧ getHeffNeff g = .ok P ∧
    matvec P.heffSite P.henvSite oneMpo zTen = .ok V ∧ tdot zTen V = .ok 4 ∧
    ringHam 2 1 0 3 oneLoc (List.replicate 3 zTen) (List.replicate 3 zTen) = 0 := by
  refine ⟨_, _, _, rfl, rfl, rfl, ?_, ?_⟩
  · unfold tdot
    rw [if_pos ⟨rfl, rfl, rfl⟩]
    congr 1
    simp [sum_range_succ, zTen, oneMpo, transfer]
    norm_num
  · have e : ringAmp 2 (List.replicate 3 zTen) [0, 0, 0] = 0 := by
      simp [ringAmp, chain, sum_range_succ, zTen, delta]
    unfold ringHam
    simp only [List.replicate_succ (n := 2) (a := 1), List.replicate_succ (n := 1) (a := 1),
      List.replicate_succ (n := 0) (a := 1), List.replicate_zero, sumCfg, sum_range_one, e, mul_zero]

/-- `checkH(2)` is zero: no branch of its loop applies. -/
theorem C97_violated_checkH {D d K N : ℕ} {A : Ten ℂ} {W : Mpo ℂ} {L : Loc} (hA : Sq D d A) (h : NNBulk d K W L)
    (Ws : List (Mpo ℂ)) : ∃ g H, initPeriodic [A] (some false) (W :: Ws) N = .ok g ∧ checkH g 2 = .ok H ∧
      ∀ r r' l l', H.v r r' l l' = 0 := by
  obtain ⟨g, hg, rfl, -⟩ := init_ok (A := A) h Ws N
  obtain ⟨⟨rl, rr, ri, ro, rv⟩, ⟨r3l, r3r, r3i, r3o, r3v⟩, ⟨cl, cr, ci, co, cv⟩, c3l, c3r, c3i, c3o, c3v⟩ := rows_ok h hg
  obtain ⟨hl, e1, i1⟩ := hLocal_ok hA rl rr ri ro c3l c3r c3i c3o
  obtain ⟨hm, e2, i2⟩ := hLocal_ok hA r3l r3r r3i r3o c3l c3r c3i c3o
  obtain ⟨hr, e3, i3⟩ := hLocal_ok hA r3l r3r r3i r3o cl cr ci co
  refine ⟨g, ⟨hm.r, hm.r', hm.l, hm.l', fun _ _ _ _ => 0⟩, hg, ?_, fun _ _ _ _ => rfl⟩
  simp only [checkH, e1, e2, e3]
  rfl

/-- `gradient_optimize` never completes a round: when everything before succeeds it reads `gradmps` before assignment,
and `simulateVUMPS` passes two arguments too many to `matvec`. -/
theorem C97_violated_methods {D d K N : ℕ} {A C : Ten ℂ} {mat : Mat ℂ} {W : Mpo ℂ} {L : Loc} (hC : Sq D d C)
    (hm : mat.c = D) (h : NNBulk d K W L) (hN : 4 ≤ N) (Ws : List (Mpo ℂ)) :
    ∃ g, initPeriodic [A] (some false) (W :: Ws) N = .ok g ∧ gradientRound g (.ok (C, mat)) = .error .unbound ∧
      vumpsRound g (.ok (C, mat)) = .error .type := by
  obtain ⟨n, rfl⟩ : ∃ n, N = n + 3 := ⟨N - 3, by omega⟩
  obtain ⟨g, hg, rfl, rfl, gN, ⟨a1, a2, a3, a4, a5⟩, b1, b2, b3, b4, b5⟩ := init_ok (A := A) h Ws (n + 3)
  obtain ⟨P, hP, i⟩ := eff_ok (g := { g with A := C }) hC h (by omega) gN a1 a2 a3 a4 b1 b2 b3 b4
  obtain ⟨V, hV, -⟩ := matvec_ok hC h a1 a2 a5 b1 b2 b5 i hC hC
  refine ⟨g, hg, ?_, ?_⟩
  · simp only [gradientRound, hP]
    rw [if_neg (by rw [i.nsl, i.nsl', hm]; simp)]
    simp only [callPy, hV, if_true]
  · simp only [vumpsRound, hP, callPy]
    rfl

/-- Neither method returns a value, whatever the state and the outcome of `canonize`. -/
theorem C97_violated_methods_any (g : Eng) (canon : Res (Ten ℂ × Mat ℂ)) :
    (∀ x, gradientRound g canon ≠ .ok x) ∧ ∀ x, vumpsRound g canon ≠ .ok x := by
  constructor
  · intro x hx
    unfold gradientRound at hx
    split at hx
    · cases hx
    · split at hx
      · cases hx
      · split at hx
        · cases hx
        · split at hx <;> cases hx
  · intro x hx
    unfold vumpsRound at hx
    split at hx
    · cases hx
    · split at hx
      · cases hx
      · simp [callPy] at hx

/-- The constructor rejects more than one tensor, a state with open boundaries and, against its docstring, a plain
list. -/
theorem C97_constructor (mps : List (Ten ℂ)) (obc : Option Bool) (mpo : List (Mpo ℂ)) (N : ℕ) :
    (1 < mps.length → initPeriodic mps obc mpo N = .error .value) ∧
    (initPeriodic mps (some true) mpo N = .error .value) ∧
    (mps.length ≤ 1 → initPeriodic mps none mpo N = .error .attribute) := by
  refine ⟨fun h => if_pos h, ?_, fun h => if_neg (by omega)⟩
  unfold initPeriodic
  split <;> rfl

/-- The hypotheses are met by the transverse-field Ising chain with any tensor of two physical states. -/
example (J B : ℂ) (v : ℕ → ℕ → ℕ → ℂ) : Sq 3 2 ⟨3, 3, 2, v⟩ ∧
    NNBulk 2 1 (tfiBulk J B) ⟨sigZ2.smul' B, fun _ => sigX.smul' J, fun _ => sigX⟩ := ⟨⟨rfl, rfl, rfl⟩, tfi_bulk J B⟩

/-- A ring of four sites on which the energy is not trivial: `H = 4`, norm `4`. -/
example : ringHam 2 1 0 4 oneLoc (List.replicate 4 zTen) (List.replicate 4 zTen) = 16 ∧
    ringDot 2 1 4 (List.replicate 4 zTen) (List.replicate 4 zTen) = 4 := by
  have e : ringAmp 2 (List.replicate 4 zTen) [0, 0, 0, 0] = 2 := by
    simp [ringAmp, chain, sum_range_succ, zTen, delta]; norm_num
  have e2 : perEl 1 0 4 oneLoc [0, 0, 0, 0] [0, 0, 0, 0] = 4 := by
    simp [perEl, hamEl, sum_range_succ, at1, opEl, oneLoc, eyeK, List.replicate]; norm_num
  unfold ringHam ringDot
  simp only [List.replicate_succ (n := 3) (a := 1), List.replicate_succ (n := 2) (a := 1),
    List.replicate_succ (n := 1) (a := 1), List.replicate_succ (n := 0) (a := 1), List.replicate_zero, sumCfg,
    sum_range_one, e, e2]
  constructor
  · simp; norm_num
  · simp; norm_num

end PyTeN.Periodic
