import Verif.Mps.Sweep

/-! # Lemmas on `MPS.__position__` -/

namespace PyTeN
open Finset

noncomputable section

/-- Spec: dimension of bond `b` (between sites `b-1` and `b`); at the position the centre matrix
decides. -/
def MPS.bondDim (m : MPS) (b : ℕ) : ℕ :=
  if b = m.pos then max m.mat.r m.mat.c
  else if b < m.pos then (m.tensors[b]?.map Ten.l).getD 0
  else (m.tensors[b - 1]?.map Ten.r).getD 0

theorem cutR_exact {O : LinAlg} (hO : O.Spec) {sth : ℝ} (hs : sth < 1e-15) (t a : Ten ℂ)
    (m : Mat ℂ) (z : ℝ) (h : cutR O sth none t = .ok (a, m, z)) : ExactR t a m z := by
  unfold cutR at h
  rw [if_pos ⟨hs, rfl⟩] at h
  simp only [prepareTensor] at h
  exact prepareTensorR_spec hO h

theorem cutL_exact {O : LinAlg} (hO : O.Spec) {sth : ℝ} (hs : sth < 1e-15) (t a : Ten ℂ)
    (m : Mat ℂ) (z : ℝ) (h : cutL O sth none t = .ok (a, m, z)) : ExactL t a m z := by
  unfold cutL at h
  rw [if_pos ⟨hs, rfl⟩] at h
  simp only [prepareTensor] at h
  exact prepareTensorL_spec hO h

theorem cutR_err {O : LinAlg} (hO : O.Spec) {sth : ℝ} (hs : sth < 1e-15) (t : Ten ℂ)
    (e : PyErr) (h : cutR O sth none t = .error e) :
    e = .nan ∧ ∀ i < t.l, ∀ j < t.r, ∀ s < t.d, t.v i j s = 0 := by
  unfold cutR at h
  rw [if_pos ⟨hs, rfl⟩] at h
  simp only [prepareTensor] at h
  exact prepareTensorR_err hO h

theorem cutL_err {O : LinAlg} (hO : O.Spec) {sth : ℝ} (hs : sth < 1e-15) (t : Ten ℂ)
    (e : PyErr) (h : cutL O sth none t = .error e) :
    e = .nan ∧ ∀ i < t.l, ∀ j < t.r, ∀ s < t.d, t.v i j s = 0 := by
  unfold cutL at h
  rw [if_pos ⟨hs, rfl⟩] at h
  simp only [prepareTensor] at h
  exact prepareTensorL_err hO h

theorem linked_getElem_l {l r : ℕ} {ts : List (Ten ℂ)} (h : Linked l ts r) {k : ℕ}
    (hk : k < ts.length) :
    (ts[k]?.map Ten.l).getD 0 = if k = 0 then l else (ts[k - 1]?.map Ten.r).getD 0 := by
  induction ts generalizing l k with
  | nil => simp at hk
  | cons t ts ih =>
    cases k with
    | zero => simp [h.1]
    | succ k =>
      have := ih h.2 (k := k) (by simpa using hk)
      simp only [List.getElem?_cons_succ, Nat.add_one_ne_zero, if_false, Nat.add_sub_cancel]
      rw [this]
      cases k with
      | zero => simp
      | succ k => simp

theorem linked_last {l r : ℕ} {ts : List (Ten ℂ)} (h : Linked l ts r) {k : ℕ}
    (hk : ts.length = k + 1) : (ts[k]?.map Ten.r).getD 0 = r := by
  induction ts generalizing l k with
  | nil => simp at hk
  | cons t ts ih =>
    cases k with
    | zero =>
      have : ts = [] := by simpa using hk
      subst this; simpa [Linked] using h.2
    | succ k => simpa using ih h.2 (by simpa using hk)

/-- Result of a non-truncating `position` call. -/
structure Moved (m m' : MPS) (l r b : ℕ) : Prop where
  wf : m'.WF l r
  pos : m'.pos = b
  N : m'.N = m.N
  Dmax : m'.Dmax = m.Dmax
  obc : m'.obc = m.obc
  sth : m'.sth = m.sth
  rth : m'.rth = m.rth
  conn : m'.conn = m.conn
  ds : m'.ds = m.ds
  amp : ∀ s, Cfg m.tensors s → ∀ i < l, ∀ j, m'.amp s i j = m.amp s i j
  bond : ∀ x ≤ m.N, m'.bondDim x ≤ m.bondDim x
  left : ∀ x t, m'.tensors[x]? = some t → m.pos ≤ x → x < b → LeftOrth t
  right : ∀ x t, m'.tensors[x]? = some t → b ≤ x → x < m.pos → RightOrth t
  same : ∀ x, (x < m.pos ∧ x < b) ∨ (m.pos ≤ x ∧ b ≤ x) → m'.tensors[x]? = m.tensors[x]?
  norm : b ≠ m.pos → normF m'.mat = 1

theorem tensors_split (m : MPS) {l r : ℕ} (h : m.WF l r) {b : ℕ} (hb : m.pos < b) (hN : b ≤ m.N) :
    ∃ A t C B, m.tensors = A ++ t :: C ++ B ∧ A.length = m.pos ∧ A.length + C.length + 1 = b := by
  have hl : m.pos < m.tensors.length := by rw [h.len]; omega
  refine ⟨m.tensors.take m.pos, m.tensors[m.pos], (m.tensors.drop (m.pos + 1)).take (b - m.pos - 1),
    (m.tensors.drop (m.pos + 1)).drop (b - m.pos - 1), ?_, ?_, ?_⟩
  · simp only [List.append_assoc, List.cons_append]
    rw [List.take_append_drop, ← List.drop_eq_getElem_cons hl, List.take_append_drop]
  · simp; omega
  · simp [h.len]; omega

theorem tensors_splitL (m : MPS) {l r : ℕ} (h : m.WF l r) {b : ℕ} (hb : b < m.pos) :
    ∃ A C t B, m.tensors = A ++ C ++ t :: B ∧ A.length = b ∧ A.length + C.length + 1 = m.pos := by
  have hp := h.pos_le
  have hl : m.pos - 1 < m.tensors.length := by rw [h.len]; omega
  refine ⟨m.tensors.take b, (m.tensors.drop b).take (m.pos - 1 - b), m.tensors[m.pos - 1],
    m.tensors.drop m.pos, ?_, ?_, ?_⟩
  · have e : m.tensors.drop m.pos = m.tensors.drop (m.pos - 1 + 1) := by congr 1; omega
    rw [e, ← List.drop_eq_getElem_cons hl]
    have e2 : m.tensors.drop (m.pos - 1) = (m.tensors.drop b).drop (m.pos - 1 - b) := by
      rw [List.drop_drop]; congr 1; omega
    rw [e2, List.append_assoc, List.take_append_drop, List.take_append_drop]
  · simp [h.len]; omega
  · simp [h.len]; omega

theorem position_self {m : MPS} {l r : ℕ} (hw : m.WF l r) : Moved m m l r m.pos :=
  ⟨hw, rfl, rfl, rfl, rfl, rfl, rfl, rfl, rfl, fun _ _ _ _ _ => rfl, fun _ _ => le_rfl,
    fun _ _ _ h1 h2 => by omega, fun _ _ _ h1 h2 => by omega, fun _ _ => rfl, fun h => absurd rfl h⟩

theorem position_right {O : LinAlg} (hO : O.Spec) {m m' : MPS} {l r b : ℕ} {sth : ℝ}
    (hs : m.effSth sth < 1e-15) (hw : m.WF l r) (hb : m.pos < b) (hN : b ≤ m.N)
    (h : m.position O b sth none = .ok m') : Moved m m' l r b := by
  obtain ⟨A, t, C0, B, hts, hA, hlen⟩ := tensors_split m hw hb hN
  have htake : m.tensors.take m.pos = A := by rw [hts, ← hA]; simp
  have hdrop : m.tensors.drop m.pos = t :: (C0 ++ B) := by rw [hts, ← hA]; simp
  have hL := hw.left
  have hR := hw.right
  rw [htake] at hL
  rw [hdrop] at hR
  unfold MPS.position at h
  rw [if_neg (by simp; omega), if_neg (by simp)] at h
  simp only [Int.toNat_natCast] at h
  rw [if_neg (by omega), if_pos hb] at h
  have hg : getT m.tensors m.pos = .ok t := by
    rw [hts, List.append_assoc]; exact getT_append' _ _ _ hA.symm
  rw [hg] at h
  simp only at h
  have hc : m.mat.c = t.l := hR.1.symm
  obtain ⟨t', ht'⟩ : ∃ t', absorbL m.mat t = .ok t' := ⟨_, absorbL_ok hc⟩
  rw [ht'] at h
  simp only at h
  obtain ⟨-, hte⟩ := absorbL_eq ht'
  have hset : m.tensors.set m.pos t' = A ++ t' :: C0 ++ B := by
    rw [hts, List.append_assoc]
    exact (set_append' A t t' (C0 ++ B) hA.symm).trans (by simp)
  have hr' : t'.r = t.r := by rw [hte]
  have hd' : t'.d = t.d := by rw [hte]
  have hl' : t'.l = m.mat.r := by rw [hte]
  have hlinked : Linked l (A ++ t' :: C0 ++ B) r := by
    rw [List.append_assoc, linked_append]
    exact ⟨m.mat.r, hL, hl', by rw [hr']; exact hR.2⟩
  split at h
  · cases h
  rename_i w hsw
  simp only [Except.ok.injEq] at h
  have e1 : b = A.length + C0.length + 1 := hlen.symm
  have e2 : b - m.pos = C0.length + 1 := by omega
  rw [hset, e2, ← hA] at hsw
  rw [e1] at hsw
  obtain ⟨C, hwt, hS⟩ := sweepR_ok (cutR_exact hO hs) C0 A t' B m.mat m.Z w hlinked hsw
  subst h
  have hClen : C.length = C0.length + 1 := by simpa using hS.len
  have htake' : w.ts.take b = A ++ C := by
    rw [hwt, List.take_left' (by simp; omega)]
  have hdrop' : w.ts.drop b = B := by
    rw [hwt, List.drop_left' (by simp; omega)]
  have hle : ∀ k : ℕ, (C[k]?.map Ten.r).getD 0 ≤ ((t :: C0)[k]?.map Ten.r).getD 0 := by
    intro k
    have hle2 : List.Forall₂ (fun c t : Ten ℂ => c.r ≤ t.r) C (t :: C0) := by
      have := hS.le
      cases this with
      | cons h3 h4 => exact List.Forall₂.cons (by rw [← hr']; exact h3) h4
    generalize (t :: C0) = D at hle2
    clear * - hle2
    induction hle2 generalizing k with
    | nil => simp
    | cons h _ ih => cases k with
      | zero => simpa using h
      | succ k => simpa using ih k
  have hwN : m.N = A.length + C0.length + 1 + B.length := by
    rw [← hw.len, hts]; simp; omega
  refine ⟨⟨?_, ?_, ?_, ?_⟩, rfl, rfl, rfl, rfl, rfl, rfl, rfl, ?_, ?_, ?_, ?_, ?_, ?_, fun _ => hS.norm⟩
  · simp only; rw [hwt, ← hw.len, hts]; simp [hClen]; omega
  · exact hN
  · simp only; rw [htake']; exact hS.left
  · simp only; rw [hdrop']; exact hS.right
  · simp only [MPS.ds]
    rw [hwt, hts]
    have := hS.ds
    simp only [List.map_append, List.map_cons] at this ⊢
    rw [this, hd']
  · intro s hcfg i hi j
    rw [hts] at hcfg
    obtain ⟨sAC, sB, rfl, hcA, hcB⟩ := cfg_split hcfg
    obtain ⟨sA, sC, rfl, hcA, hcC⟩ := cfg_split hcA
    have hcC' : Cfg (t' :: C0) sC := by
      cases hcC with
      | cons h1 h2 => exact List.Forall₂.cons (by rw [hd']; exact h1) h2
    have key := hS.amp sA sC sB hcA hcC' hcB i hi j
    rw [amp_eq_split, amp_eq_split]
    simp only
    rw [htake', hdrop', htake, hdrop]
    have l1 := cfg_length hcA
    have l2 := cfg_length hcC
    simp only [List.length_cons] at l2
    rw [List.take_left' (by simp; omega), List.drop_left' (by simp; omega), key]
    congr 1
    have t1 : (sA ++ sC ++ sB).take m.pos = sA := by
      rw [List.append_assoc]; exact List.take_left' (by omega)
    have t2 : (sA ++ sC ++ sB).drop m.pos = sC ++ sB := by
      rw [List.append_assoc]; exact List.drop_left' (by omega)
    rw [t1, t2]
    cases hcC with
    | cons h1 h2 =>
      rename_i x sC
      have := split_absorbL hL ht' (C0 ++ B) sA l1 x (sC ++ sB) hi j
      simpa using this
  · intro x hx
    have hAC := hS.left
    have gA : ∀ y, y < A.length → w.ts[y]? = m.tensors[y]? := by
      intro y hy
      rw [hwt, hts, List.append_assoc, List.append_assoc, List.getElem?_append_left hy,
        List.getElem?_append_left hy]
    have gAC : ∀ y, y < b → w.ts[y]? = (A ++ C)[y]? := by
      intro y hy; rw [hwt, List.getElem?_append_left (by simp; omega)]
    have gC : ∀ y, A.length ≤ y → y < b → (A ++ C)[y]? = C[y - A.length]? := by
      intro y hy _; rw [List.getElem?_append_right hy]
    have gC0 : ∀ y, A.length ≤ y → y < b → m.tensors[y]? = (t :: C0)[y - A.length]? := by
      intro y hy hyb
      rw [hts, List.getElem?_append_left (by simp; omega), List.getElem?_append_right hy]
    have gB : ∀ y, b ≤ y → w.ts[y]? = m.tensors[y]? := by
      intro y hy
      rw [hwt, hts, List.getElem?_append_right (by simp; omega),
        List.getElem?_append_right (by simp; omega)]
      congr 1; simp; omega
    unfold MPS.bondDim
    simp only
    by_cases h1 : x < b
    · rw [if_neg (by omega), if_pos h1]
      by_cases h2 : x < m.pos
      · rw [if_neg (by omega), if_pos h2, gA x (by omega)]
      · rw [gAC x h1]
        by_cases h3 : x = m.pos
        · rw [if_pos h3]
          have : (A ++ C)[x]? = C[0]? := by
            rw [gC x (by omega) h1]; congr 1; omega
          rw [this]
          rw [linked_append] at hAC
          obtain ⟨n, hA1, hC1⟩ := hAC
          have hn : n = m.mat.r := by rw [← linked_rdim hA1, linked_rdim hL]
          rw [linked_getElem_l hC1 (by omega), if_pos rfl, hn]
          exact le_max_left _ _
        · rw [linked_getElem_l hAC (by simp; omega), if_neg (by omega), if_neg h3, if_neg h2,
            gC0 (x - 1) (by omega) (by omega),
            gC (x - 1) (by omega) (by omega)]
          exact hle _
    · by_cases h2 : x = b
      · rw [if_pos h2, if_neg (by omega), if_neg (by omega)]
        rw [gC0 (x - 1) (by omega) (by omega)]
        have e1 : w.mat.r = (C[C0.length]?.map Ten.r).getD 0 := by
          rw [linked_append] at hAC
          obtain ⟨n, hA1, hC1⟩ := hAC
          exact (linked_last hC1 hClen).symm
        have e3 : x - 1 - A.length = C0.length := by omega
        rw [e3]
        apply max_le
        · rw [e1]; exact hle _
        · have hR2 : Linked t.r (C0 ++ B) r := hR.2
          have hR3 : Linked m.mat.c (t :: C0 ++ B) r := hR
          rw [linked_append] at hR3
          obtain ⟨n, h5, h6⟩ := hR3
          have hcB := hS.right
          rw [linked_last h5 (by simp)]
          by_cases hBn : B = []
          · subst hBn; simp only [Linked] at hcB h6; omega
          · obtain ⟨b0, B', rfl⟩ := List.exists_cons_of_ne_nil hBn
            have := hcB.1; have := h6.1; omega
      · rw [if_neg h2, if_neg h1, if_neg (by omega), if_neg (by omega), gB (x - 1) (by omega)]
  · intro x t0 hx h1 h2
    simp only at hx
    rw [hwt, List.getElem?_append_left (by simp; omega), List.getElem?_append_right (by omega)] at hx
    exact hS.orth _ (List.mem_of_getElem? hx)
  · intro x t0 hx h1 h2; omega
  · intro x hx
    simp only
    rcases hx with ⟨h1, _⟩ | ⟨_, h2⟩
    · rw [hwt, hts, List.append_assoc, List.append_assoc, List.getElem?_append_left (by omega),
        List.getElem?_append_left (by omega)]
    · rw [hwt, hts, List.getElem?_append_right (by simp; omega),
        List.getElem?_append_right (by simp; omega)]
      congr 1; simp; omega

theorem position_left {O : LinAlg} (hO : O.Spec) {m m' : MPS} {l r b : ℕ} {sth : ℝ}
    (hs : m.effSth sth < 1e-15) (hw : m.WF l r) (hb : b < m.pos)
    (h : m.position O b sth none = .ok m') : Moved m m' l r b := by
  have hN : b ≤ m.N := by have := hw.pos_le; omega
  obtain ⟨A, C0, t, B, hts, hA, hlen⟩ := tensors_splitL m hw hb
  have hlA : (A ++ C0 ++ [t]).length = m.pos := by simp; omega
  have hts2 : m.tensors = (A ++ C0 ++ [t]) ++ B := by rw [hts]; simp
  have htake : m.tensors.take m.pos = A ++ C0 ++ [t] := by rw [hts2, List.take_left' hlA]
  have hdrop : m.tensors.drop m.pos = B := by rw [hts2, List.drop_left' hlA]
  have hL := hw.left
  have hR := hw.right
  rw [htake] at hL
  rw [hdrop] at hR
  unfold MPS.position at h
  rw [if_neg (by simp; omega), if_neg (by simp)] at h
  simp only [Int.toNat_natCast] at h
  rw [if_neg (by omega), if_neg (by omega)] at h
  have hlAC : m.pos - 1 = (A ++ C0).length := by simp; omega
  have hg : getT m.tensors (m.pos - 1) = .ok t := by
    rw [hts]; exact getT_append' _ _ _ hlAC
  rw [hg] at h
  simp only at h
  rw [linked_append] at hL
  obtain ⟨n, hL, ht1⟩ := hL
  obtain ⟨rfl, hc⟩ := ht1
  have hc : t.r = m.mat.r := hc
  obtain ⟨t', ht'⟩ : ∃ t', absorbR t m.mat = .ok t' := ⟨_, absorbR_ok hc⟩
  rw [ht'] at h
  simp only at h
  obtain ⟨-, hte⟩ := absorbR_eq ht'
  have hset : m.tensors.set (m.pos - 1) t' = A ++ C0 ++ t' :: B := by
    rw [hts]
    exact set_append' (A ++ C0) t t' B hlAC
  have hr' : t'.r = m.mat.c := by rw [hte]
  have hd' : t'.d = t.d := by rw [hte]
  have hl' : t'.l = t.l := by rw [hte]
  have hlinked : Linked l (A ++ C0 ++ t' :: B) r := by
    rw [linked_append]
    exact ⟨t.l, hL, hl', by rw [hr']; exact hR⟩
  split at h
  · cases h
  rename_i w hsw
  simp only [Except.ok.injEq] at h
  have e2 : m.pos - b = C0.length + 1 := by omega
  rw [hset, e2, ← hA] at hsw
  obtain ⟨C, hwt, hS⟩ := sweepL_ok (cutL_exact hO hs) A C0 t' B m.mat m.Z w hlinked hsw
  subst h
  have hClen : C.length = C0.length + 1 := by simpa using hS.len
  have htake' : w.ts.take b = A := by
    rw [hwt, List.append_assoc, List.take_left' hA]
  have hdrop' : w.ts.drop b = C ++ B := by
    rw [hwt, List.append_assoc, List.drop_left' hA]
  have hle : ∀ k : ℕ, (C[k]?.map Ten.l).getD 0 ≤ ((C0 ++ [t])[k]?.map Ten.l).getD 0 := by
    intro k
    have hle2 : List.Forall₂ (fun (c : Ten ℂ) (n : ℕ) => c.l ≤ n) C ((C0 ++ [t]).map Ten.l) := by
      have h2 := (List.forall₂_map_right_iff (R := fun (c : Ten ℂ) (n : ℕ) => c.l ≤ n)
          (f := Ten.l)).mpr hS.le
      simpa [hl'] using h2
    have e : ((C0 ++ [t])[k]?.map Ten.l).getD 0 = (((C0 ++ [t]).map Ten.l)[k]?).getD 0 := by
      rw [List.getElem?_map]
    rw [e]
    generalize ((C0 ++ [t]).map Ten.l) = D at hle2
    clear * - hle2
    induction hle2 generalizing k with
    | nil => simp
    | cons h _ ih => cases k with
      | zero => simpa using h
      | succ k => simpa using ih k
  have hwN : m.N = A.length + C0.length + 1 + B.length := by
    rw [← hw.len, hts]; simp; omega
  refine ⟨⟨?_, ?_, ?_, ?_⟩, rfl, rfl, rfl, rfl, rfl, rfl, rfl, ?_, ?_, ?_, ?_, ?_, ?_, fun _ => hS.norm⟩
  · simp only; rw [hwt, ← hw.len, hts]; simp [hClen]; omega
  · exact hN
  · simp only; rw [htake']; exact hS.left
  · simp only; rw [hdrop']; exact hS.right
  · simp only [MPS.ds]
    rw [hwt, hts2]
    have := hS.ds
    simp only [List.map_append, List.map_cons, List.map_nil] at this ⊢
    rw [this, hd']; simp
  · intro s hcfg i hi j
    rw [hts2, List.append_assoc A] at hcfg
    obtain ⟨sAC, sB, rfl, hcA, hcB⟩ := cfg_split hcfg
    obtain ⟨sA, sC, rfl, hcA, hcC⟩ := cfg_split hcA
    have hcC' : Cfg (C0 ++ [t']) sC := by
      rw [cfg_iff_map] at hcC ⊢
      simpa [hd'] using hcC
    have key := hS.amp sA sC sB hcA hcC' hcB i hi j
    rw [amp_eq_split, amp_eq_split]
    simp only
    rw [htake', hdrop', htake, hdrop]
    have l1 := cfg_length hcA
    have l2 := cfg_length hcC
    simp only [List.length_append, List.length_cons, List.length_nil] at l2
    have t1 : (sA ++ sC ++ sB).take b = sA := by
      rw [List.append_assoc]; exact List.take_left' (by omega)
    have t2 : (sA ++ sC ++ sB).drop b = sC ++ sB := by
      rw [List.append_assoc]; exact List.drop_left' (by omega)
    rw [t1, t2, key]
    rw [List.take_left' (by simp; omega), List.drop_left' (by simp; omega)]
    congr 1
    obtain ⟨sC0, sx, rfl, h2c, h2d⟩ := cfg_split hcC
    cases h2d with
    | cons h1 h2 =>
      cases h2
      rename_i x
      have := split_absorbR hL ht' B (sA ++ sC0) (by simp [l1, cfg_length h2c]) x sB hi j
      simpa using this
  · intro x hx
    have hAC := hS.right
    have gA : ∀ y, y < A.length → w.ts[y]? = m.tensors[y]? := by
      intro y hy
      rw [hwt, hts, List.append_assoc, List.append_assoc, List.getElem?_append_left hy,
        List.getElem?_append_left hy]
    have gC : ∀ y, b ≤ y → y < m.pos → w.ts[y]? = C[y - b]? := by
      intro y hy hy2
      rw [hwt, List.append_assoc, List.getElem?_append_right (by omega),
        List.getElem?_append_left (by omega), hA]
    have gC0 : ∀ y, b ≤ y → y < m.pos → m.tensors[y]? = (C0 ++ [t])[y - b]? := by
      intro y hy hyb
      rw [hts2, List.append_assoc A, List.append_assoc A, List.getElem?_append_right (by omega),
        List.getElem?_append_left (by simp; omega), hA]
    have gB : ∀ y, m.pos ≤ y → w.ts[y]? = m.tensors[y]? := by
      intro y hy
      rw [hwt, hts2, List.getElem?_append_right (by simp; omega),
        List.getElem?_append_right (by simp; omega)]
      congr 1; simp; omega
    have hold : Linked l (A ++ C0 ++ [t]) m.mat.r := by
      rw [linked_append]; exact ⟨t.l, hL, rfl, hc⟩
    unfold MPS.bondDim
    simp only
    by_cases h1 : x < b
    · rw [if_neg (by omega), if_pos h1, if_neg (by omega), if_pos (by omega), gA x (by omega)]
    · by_cases h2 : x = b
      · rw [if_pos h2, if_neg (by omega), if_pos (by omega), gC0 x (by omega) (by omega)]
        have hCB := hAC
        rw [linked_append] at hCB
        obtain ⟨n, hC1, hB1⟩ := hCB
        have e1 : w.mat.c = (C[0]?.map Ten.l).getD 0 := by
          rw [linked_getElem_l hC1 (by omega), if_pos rfl]
        have e0 : x - b = 0 := by omega
        rw [e0]
        apply max_le
        · rw [List.append_assoc, linked_append] at hold
          obtain ⟨n, h5, h6⟩ := hold
          rw [linked_getElem_l h6 (by simp), if_pos rfl]
          have := hS.left
          rw [← linked_rdim h5, linked_rdim this]
        · rw [e1]; exact hle 0
      · rw [if_neg h2, if_neg h1]
        by_cases h3 : x < m.pos
        · rw [if_neg (by omega), if_pos h3]
          rw [gC0 x (by omega) h3, gC (x - 1) (by omega) (by omega)]
          have := linked_getElem_l hAC (k := x - b) (by simp; omega)
          rw [if_neg (by omega)] at this
          rw [List.getElem?_append_left (by omega), List.getElem?_append_left (by omega)] at this
          have e : x - 1 - b = x - b - 1 := by omega
          rw [e, ← this]
          exact hle _
        · by_cases h4 : x = m.pos
          · rw [if_pos h4, gC (x - 1) (by omega) (by omega)]
            have e : x - 1 - b = C0.length := by omega
            rw [e]
            have hCB := hAC
            rw [linked_append] at hCB
            obtain ⟨n, hC1, hB1⟩ := hCB
            rw [linked_last hC1 hClen]
            refine le_trans (le_of_eq ?_) (le_max_right _ _)
            by_cases hBn : B = []
            · subst hBn; simp only [Linked] at hB1 hR; omega
            · obtain ⟨b0, B', rfl⟩ := List.exists_cons_of_ne_nil hBn
              have := hB1.1; have := hR.1; omega
          · rw [if_neg h4, if_neg h3, gB (x - 1) (by omega)]
  · intro x t0 hx h1 h2; omega
  · intro x t0 hx h1 h2
    simp only at hx
    rw [hwt, List.append_assoc, List.getElem?_append_right (by omega),
      List.getElem?_append_left (by omega)] at hx
    exact hS.orth _ (List.mem_of_getElem? hx)
  · intro x hx
    simp only
    rcases hx with ⟨_, h1⟩ | ⟨h2, _⟩
    · rw [hwt, hts, List.append_assoc, List.append_assoc, List.getElem?_append_left (by omega),
        List.getElem?_append_left (by omega)]
    · rw [hwt, hts2, List.getElem?_append_right (by simp; omega),
        List.getElem?_append_right (by simp; omega)]
      congr 1; simp; omega

/-- Every successful non-truncating `position` call. -/
theorem position_moved {O : LinAlg} (hO : O.Spec) {m m' : MPS} {l r : ℕ} {b : ℤ} {sth : ℝ}
    (hs : m.effSth sth < 1e-15) (hw : m.WF l r)
    (h : m.position O b sth none = .ok m') :
    0 ≤ b ∧ b ≤ m.N ∧ Moved m m' l r b.toNat := by
  by_cases h1 : b ≤ m.N
  · by_cases h2 : 0 ≤ b
    · obtain ⟨n, rfl⟩ := Int.eq_ofNat_of_zero_le h2
      refine ⟨h2, h1, ?_⟩
      simp only [Int.toNat_natCast]
      have h1' : n ≤ m.N := by exact_mod_cast h1
      rcases lt_trichotomy n m.pos with h3 | h3 | h3
      · exact position_left hO hs hw h3 h
      · unfold MPS.position at h
        rw [if_neg (by simp; omega), if_neg (by simp)] at h
        simp only [Int.toNat_natCast] at h
        rw [if_pos h3] at h
        cases h
        rw [h3]
        exact position_self hw
      · exact position_right hO hs hw h3 h1' h
    · unfold MPS.position at h
      rw [if_neg (by simpa using h1), if_pos (by simpa using h2)] at h
      cases h
  · unfold MPS.position at h
    rw [if_pos (by simpa using h1)] at h
    cases h

/-- A non-truncating `position` call inside the range fails only with NaN and only if the
represented state is zero. -/
theorem position_err {O : LinAlg} (hO : O.Spec) {m : MPS} {l r b : ℕ} {sth : ℝ} {e : PyErr}
    (hs : m.effSth sth < 1e-15) (hw : m.WF l r) (hN : b ≤ m.N)
    (h : m.position O b sth none = .error e) :
    e = .nan ∧ ∀ s, Cfg m.tensors s → ∀ i < l, ∀ j, m.amp s i j = 0 := by
  unfold MPS.position at h
  rw [if_neg (by simp; omega), if_neg (by simp)] at h
  simp only [Int.toNat_natCast] at h
  rcases lt_trichotomy b m.pos with hb | hb | hb
  · rw [if_neg (by omega), if_neg (by omega)] at h
    obtain ⟨A, C0, t, B, hts, hA, hlen⟩ := tensors_splitL m hw hb
    have hlA : (A ++ C0 ++ [t]).length = m.pos := by simp; omega
    have hts2 : m.tensors = (A ++ C0 ++ [t]) ++ B := by rw [hts]; simp
    have htake : m.tensors.take m.pos = A ++ C0 ++ [t] := by rw [hts2, List.take_left' hlA]
    have hdrop : m.tensors.drop m.pos = B := by rw [hts2, List.drop_left' hlA]
    have hL := hw.left
    have hR := hw.right
    rw [htake] at hL
    rw [hdrop] at hR
    have hlAC : m.pos - 1 = (A ++ C0).length := by simp; omega
    have hg : getT m.tensors (m.pos - 1) = .ok t := by
      rw [hts]; exact getT_append' _ _ _ hlAC
    rw [hg] at h
    simp only at h
    rw [linked_append] at hL
    obtain ⟨n, hL, ht1⟩ := hL
    obtain ⟨rfl, hc⟩ := ht1
    have hc : t.r = m.mat.r := hc
    obtain ⟨t', ht'⟩ : ∃ t', absorbR t m.mat = .ok t' := ⟨_, absorbR_ok hc⟩
    rw [ht'] at h
    simp only at h
    obtain ⟨-, hte⟩ := absorbR_eq ht'
    have hset : m.tensors.set (m.pos - 1) t' = A ++ C0 ++ t' :: B := by
      rw [hts]
      exact set_append' (A ++ C0) t t' B hlAC
    have hr' : t'.r = m.mat.c := by rw [hte]
    have hd' : t'.d = t.d := by rw [hte]
    have hl' : t'.l = t.l := by rw [hte]
    have hlinked : Linked l (A ++ C0 ++ t' :: B) r := by
      rw [linked_append]
      exact ⟨t.l, hL, hl', by rw [hr']; exact hR⟩
    split at h
    · rename_i e' hsw
      cases h
      have e2 : m.pos - b = C0.length + 1 := by omega
      rw [hset, e2, ← hA] at hsw
      obtain ⟨he, h0⟩ := sweepL_err (cutL_exact hO hs) (cutL_err hO hs) A C0 t' B _ _ e hlinked hsw
      refine ⟨he, ?_⟩
      intro s hcfg i hi j
      rw [hts2] at hcfg
      obtain ⟨sAC, sB, rfl, hcA, hcB⟩ := cfg_split hcfg
      obtain ⟨sC0, sx, rfl, h2c, h2d⟩ := cfg_split hcA
      cases h2d with
      | cons h1 h2 =>
        cases h2
        rename_i x
        have hcfg' : Cfg (A ++ C0 ++ t' :: B) (sC0 ++ x :: sB) :=
          cfg_append h2c (List.Forall₂.cons (by rw [hd']; exact h1) hcB)
        have hz := h0 _ hcfg' i hi j
        rw [split_absorbR hL ht' B sC0 (cfg_length h2c) x sB hi j] at hz
        rw [amp_eq_split, htake, hdrop]
        have l1 := cfg_length h2c
        have hp : (sC0 ++ [x]).length = m.pos := by simp at l1 ⊢; omega
        rw [List.take_left' hp, List.drop_left' hp, hz, mul_zero]
    · cases h
  · rw [if_pos hb] at h; cases h
  · rw [if_neg (by omega), if_pos hb] at h
    obtain ⟨A, t, C0, B, hts, hA, hlen⟩ := tensors_split m hw hb hN
    have htake : m.tensors.take m.pos = A := by rw [hts, ← hA]; simp
    have hdrop : m.tensors.drop m.pos = t :: (C0 ++ B) := by rw [hts, ← hA]; simp
    have hL := hw.left
    have hR := hw.right
    rw [htake] at hL
    rw [hdrop] at hR
    have hg : getT m.tensors m.pos = .ok t := by
      rw [hts, List.append_assoc]; exact getT_append' _ _ _ hA.symm
    rw [hg] at h
    simp only at h
    have hc : m.mat.c = t.l := hR.1.symm
    obtain ⟨t', ht'⟩ : ∃ t', absorbL m.mat t = .ok t' := ⟨_, absorbL_ok hc⟩
    rw [ht'] at h
    simp only at h
    obtain ⟨-, hte⟩ := absorbL_eq ht'
    have hset : m.tensors.set m.pos t' = A ++ t' :: C0 ++ B := by
      rw [hts, List.append_assoc]
      exact (set_append' A t t' (C0 ++ B) hA.symm).trans (by simp)
    have hr' : t'.r = t.r := by rw [hte]
    have hd' : t'.d = t.d := by rw [hte]
    have hl' : t'.l = m.mat.r := by rw [hte]
    have hlinked : Linked l (A ++ t' :: C0 ++ B) r := by
      rw [List.append_assoc, linked_append]
      exact ⟨m.mat.r, hL, hl', by rw [hr']; exact hR.2⟩
    split at h
    · rename_i e' hsw
      cases h
      have e1 : b = A.length + C0.length + 1 := hlen.symm
      have e2 : b - m.pos = C0.length + 1 := by omega
      rw [hset, e2, ← hA] at hsw
      rw [e1] at hsw
      obtain ⟨he, h0⟩ := sweepR_err (cutR_exact hO hs) (cutR_err hO hs) C0 A t' B _ _ e hlinked hsw
      refine ⟨he, ?_⟩
      intro s hcfg i hi j
      rw [hts, List.append_assoc] at hcfg
      obtain ⟨sA, sB, rfl, hcA, hcB⟩ := cfg_split hcfg
      cases hcB with
      | cons h1 h2 =>
        rename_i x ss
        have hcfg' : Cfg (A ++ t' :: C0 ++ B) (sA ++ x :: ss) := by
          rw [List.append_assoc]
          exact cfg_append hcA (List.Forall₂.cons (by rw [hd']; exact h1) h2)
        have hz := h0 _ hcfg' i hi j
        rw [List.append_assoc, List.cons_append,
          split_absorbL hL ht' (C0 ++ B) sA (cfg_length hcA) x ss hi j] at hz
        rw [amp_eq_split, htake, hdrop]
        have hp : sA.length = m.pos := by rw [cfg_length hcA, hA]
        rw [List.take_left' hp, List.drop_left' hp, hz, mul_zero]
    · cases h

end

end PyTeN
