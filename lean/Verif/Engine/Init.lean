import Verif.Engine.Progress

/-! # `DMRGengine.__init__` and `Container.update` -/

namespace PyTeN
open Finset

noncomputable section

variable {O : LinAlg}

theorem getItem_zero_l {m : MPS} {a : Ten ℂ} {l r : ℕ} (hw : m.WF l r) (hsq : m.mat.r = m.mat.c) (h : m.getItem 0 = .ok a) :
    a.l = l := by
  have h := getItem_nat (n := 0) h
  have hl := wf_link hw hsq
  rw [show m.tensors = m.tensors.drop 0 from rfl, drop_getElem? h] at hl
  exact hl.1

/-- The caches of lists computed by `getL` and `getR` are valid. -/
theorem val_of_get {m : MPS} {mpo : List (Mpo ℂ)} {lb rb : Env ℂ} {Ls Rs : List (Env ℂ)} (hlen : m.tensors.length = m.N)
    (hW : mpo.length = m.N) (hL : getL m.tensors mpo lb = .ok Ls) (hR : getR m.tensors mpo rb = .ok Rs) :
    Eng.Val ⟨m, mpo, lb, rb, lb :: Ls, rb :: Rs⟩ m.N 0 := by
  obtain ⟨l1, l2⟩ := getL_isL hL
  have hW' : mpo.length = m.tensors.length := by rw [hW, hlen]
  obtain ⟨r1, -⟩ := getR_isR hW' hR
  refine ⟨by simp [l1, hlen], by simp [r1, hlen], hW, fun k _ E hE => l2 k E hE, fun k _ hk E hE => ?_⟩
  refine getR_isR' hW' hR (by rw [hlen]; exact hk) ?_
  rw [hlen]; exact hE

/-- Outcome of the constructor. -/
theorem init_spec (hO : O.Spec) {m : MPS} {mpo : List (Mpo ℂ)} {lb rb : Option (Env ℂ)} {e : Eng}
    (h : Eng.init O m mpo lb rb = .ok e) (hW : mpo.length = m.N) {l r : ℕ} (hw : m.WF l r) (hsq : m.mat.r = m.mat.c)
    (hs : m.sth < 1e-15) :
    m.position O 0 = .ok e.mps ∧ Moved m e.mps l r 0 ∧ e.mpo = mpo ∧ l = e.lb.u ∧ r = e.rb.u ∧ e.Val e.mps.N 0 ∧
      (∀ x y, lb = some x → rb = some y → e.lb = x ∧ e.rb = y) ∧
      (lb = none ∨ rb = none → e.lb = oneEnv ∧ e.rb = oneEnv) := by
  unfold Eng.init at h
  split at h
  · cases h
  rename_i a ha
  split at h
  · cases h
  rename_i z hz
  split at h
  · rename_i w v hw0 hv0
    simp only at h
    split at h
    · cases h
    rename_i l' r' hbd
    split at h
    · cases h
    rename_i m1 hm1
    split at h
    · cases h
    rename_i Ls hLs
    split at h
    · cases h
    rename_i Rs hRs
    simp only [Except.ok.injEq] at h
    subst h
    obtain ⟨-, -, M⟩ := position_moved hO (effSth_default hs) hw hm1
    have hal := getItem_zero_l hw hsq ha
    have hzr : z.r = r := by
      have hNe : m.tensors ≠ [] := by
        rintro h0
        simp [MPS.getItem, h0] at ha
      have hl := wf_link hw hsq
      have hz' : m.tensors.getLast? = some z := by
        have hp : 0 < m.tensors.length := List.length_pos_iff.mpr hNe
        unfold MPS.getItem getZ pyIdx at hz
        rw [if_pos ⟨by omega, by simp; omega⟩, if_neg (by omega), if_pos (by omega)] at hz
        rw [List.getLast?_eq_getElem?, ← getT_ok hz]
        congr 1; omega
      obtain ⟨ys, hys⟩ := List.getLast?_eq_some_iff.mp hz'
      rw [hys, linked_append] at hl
      obtain ⟨q, -, -, q3⟩ := hl
      exact q3
    refine ⟨hm1, M, rfl, ?_, ?_, val_of_get M.wf.len (by rw [hW, M.N]) hLs hRs, ?_, ?_⟩
    · rw [← hal]
      split at hbd
      · split_ifs at hbd with hc
        simp only [Except.ok.injEq, Prod.mk.injEq] at hbd
        rw [← hbd.1]; exact hc.1
      · split_ifs at hbd with hc
        simp only [Except.ok.injEq, Prod.mk.injEq] at hbd
        rw [← hbd.1]; exact hc.2.2.1
    · rw [← hzr]
      split at hbd
      · split_ifs at hbd with hc
        simp only [Except.ok.injEq, Prod.mk.injEq] at hbd
        rw [← hbd.2]; exact hc.2.1
      · split_ifs at hbd with hc
        simp only [Except.ok.injEq, Prod.mk.injEq] at hbd
        rw [← hbd.2]; exact hc.2.2.2
    · rintro x y rfl rfl
      simp only at hbd
      split_ifs at hbd with hc
      simp only [Except.ok.injEq, Prod.mk.injEq] at hbd
      exact ⟨hbd.1.symm, hbd.2.symm⟩
    · intro hn
      split at hbd
      · rcases hn with hn | hn <;> cases hn
      · split_ifs at hbd with hc
        simp only [Except.ok.injEq, Prod.mk.injEq] at hbd
        exact ⟨hbd.1.symm, hbd.2.symm⟩
  · cases h

theorem fits_of_maps {As : List (Ten ℂ)} {Ws : List (Mpo ℂ)} (h1 : Ws.map Mpo.din = As.map Ten.d)
    (h2 : Ws.map Mpo.dout = As.map Ten.d) : Fits As Ws As := by
  induction As generalizing Ws with
  | nil =>
    have : Ws = [] := by simpa using h1
    subst this; trivial
  | cons A As ih =>
    cases Ws with
    | nil => simp at h1
    | cons W Ws =>
      simp only [List.map_cons, List.cons.injEq] at h1 h2
      exact ⟨h1.1.symm, h2.1, ih h1.2 h2.2⟩

/-- The constructor with open boundaries succeeds. -/
theorem eng_init_ok (hO : O.Spec) {m : MPS} {mpo : List (Mpo ℂ)} (hw : m.WF 1 1) (hsq : m.mat.r = m.mat.c) (hs : m.sth < 1e-15)
    (hN : 0 < m.N) (hml : MLinked 1 mpo 1) (hin : mpo.map Mpo.din = m.ds) (hout : mpo.map Mpo.dout = m.ds)
    (had : ∀ t ∈ m.tensors, t.Adm) (hne : ∃ s i j, Cfg m.tensors s ∧ i < 1 ∧ m.amp s i j ≠ 0) :
    ∃ e, Eng.init O m mpo none none = .ok e := by
  have hNe : 0 < m.tensors.length := by rw [hw.len]; exact hN
  have hWlen : mpo.length = m.tensors.length := by
    have := congrArg List.length hin
    simpa [MPS.ds] using this
  obtain ⟨a, ha⟩ := getElem?_of_lt hNe
  have hl := wf_link hw hsq
  have hal : a.l = 1 := by
    have h1 := hl
    rw [show m.tensors = m.tensors.drop 0 from rfl, drop_getElem? ha] at h1
    exact h1.1
  obtain ⟨z, hz⟩ := getElem?_of_lt (l := m.tensors) (n := m.tensors.length - 1) (by omega)
  have hgz : m.getItem (-1) = .ok z := by
    unfold MPS.getItem getZ pyIdx
    rw [if_pos ⟨by omega, by simp; omega⟩, if_neg (by omega), if_pos (by omega)]
    unfold getT
    rw [show ((m.tensors.length : ℤ) + -1).toNat = m.tensors.length - 1 by omega]
    simp only [hz]
  have hzr : z.r = 1 := by
    have hz' : m.tensors.getLast? = some z := by rw [List.getLast?_eq_getElem?]; exact hz
    obtain ⟨ys, hys⟩ := List.getLast?_eq_some_iff.mp hz'
    rw [hys, linked_append] at hl
    obtain ⟨q, -, -, q3⟩ := hl
    exact q3
  obtain ⟨m1, hm1⟩ := position_ok (b := 0) hO hw hs hne (by omega)
  obtain ⟨-, -, M⟩ := position_moved hO (effSth_default hs) hw hm1
  obtain ⟨-, sq1⟩ := position_shape hO hs hm1 had hsq
  have hl1 := wf_link M.wf sq1
  have hfit : Fits m1.tensors mpo m1.tensors := fits_of_maps (by rw [hin]; exact M.ds.symm) (by rw [hout]; exact M.ds.symm)
  have hne1 : m1.tensors ≠ [] := by
    have : m1.tensors.length = m.N := by rw [M.wf.len, M.N]
    intro h0; rw [h0] at this; simp at this; omega
  obtain ⟨Ls, hLs⟩ := C30_getL_succeeds (lb := oneEnv) hne1 hl1 hl1 hml hfit
  obtain ⟨Rs, hRs⟩ := C30_getR_succeeds (rb := oneEnv) hne1 hl1 hl1 hml hfit
  have hWne : mpo ≠ [] := by intro h0; rw [h0] at hWlen; simp at hWlen; omega
  obtain ⟨W, Ws, rfl⟩ := List.exists_cons_of_ne_nil hWne
  obtain ⟨Ws', V, hV⟩ := List.eq_nil_or_concat (W :: Ws) |>.resolve_left (by simp)
  have hv : (W :: Ws).getLast? = some V := by rw [hV]; simp
  have hVr : V.r = 1 := by
    have h1 := hml
    rw [hV, List.concat_eq_append, mlinked_append] at h1
    obtain ⟨q, -, -, q3⟩ := h1
    exact q3
  unfold Eng.init
  simp only [hgz, List.head?_cons, hv]
  rw [show m.getItem 0 = .ok a from getItem_ok (n := 0) ha]
  simp only [hml.1, hVr, hal, hzr, and_self, if_true]
  rw [show m.position O 0 = .ok m1 from hm1]
  simp only [hLs, hRs]
  exact ⟨_, rfl⟩

/-- Outcome of `update()`. -/
theorem update_spec (hO : O.Spec) {e e' : Eng} {l r : ℕ} (h : e.update O = .ok e') (hW : e.mpo.length = e.mps.N)
    (hw : e.mps.WF l r) (hs : e.mps.sth < 1e-15) :
    e.mps.position O 0 = .ok e'.mps ∧ Moved e.mps e'.mps l r 0 ∧ e'.mpo = e.mpo ∧ e'.lb = e.lb ∧ e'.rb = e.rb ∧
      e'.L = [e.lb] ∧ e'.R.length = e.mps.N + 1 ∧
      ∀ k ≤ e'.mps.N, ∀ E, e'.R[e'.mps.N - k]? = some E →
        IsR e.rb (e'.mps.tensors.drop k) (e.mpo.drop k) (e'.mps.tensors.drop k) E := by
  unfold Eng.update at h
  split at h
  · cases h
  rename_i m hm
  split at h
  · cases h
  rename_i R hR
  simp only [Except.ok.injEq] at h
  subst h
  obtain ⟨-, -, M⟩ := position_moved hO (effSth_default hs) hw hm
  have hlen : m.tensors.length = m.N := M.wf.len
  have hW' : e.mpo.length = m.tensors.length := by rw [hW, hlen, M.N]
  obtain ⟨r1, -⟩ := getR_isR hW' hR
  refine ⟨hm, M, rfl, rfl, rfl, rfl, by simp [r1, hlen, M.N], fun k hk E hE => ?_⟩
  simp only at hk hE ⊢
  refine getR_isR' hW' hR (by rw [hlen]; exact hk) ?_
  rw [hlen]; exact hE

end

end PyTeN
