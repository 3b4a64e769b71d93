import Verif.Engine.GradientSym

/-! # Lemmas for `HomogeneousIMPSengine`: the environments of a tensor in the canonical form -/

namespace PyTeN.GradOpt
open Finset Transfer Regauge Vumps Steady Matrix
noncomputable section

/-! ## The canonical form -/

/-- `np.diag(lam**2)`. -/
def rho (lam : List ℝ) (i j : ℕ) : ℂ := (diagMat (lam.map (· ^ 2))).v i j

theorem getD_sq (lam : List ℝ) (k : ℕ) : (lam.map (· ^ 2)).getD k 0 = lam.getD k 0 ^ 2 := by
  simp only [List.getD_eq_getElem?_getD, List.getElem?_map]
  cases lam[k]? <;> simp

theorem rho_v (lam : List ℝ) (i j : ℕ) : rho lam i j = if i = j then ((lam.getD i 0 : ℝ) : ℂ) * ((lam.getD i 0 : ℝ) : ℂ) else 0 := by
  unfold rho diagMat
  dsimp only
  rw [getD_sq]
  by_cases h : i = j
  · rw [if_pos h, h]
    simp
    ring
  · rw [if_neg h]
    simp [h]

theorem toM_rho {D : ℕ} (lam : List ℝ) : toM D (rho lam) = toM D (diagMat lam).v * toM D (diagMat lam).v := by
  rw [toM_diag, diagonal_mul_diagonal]
  ext i j
  simp only [toM, rho_v, diagonal_apply]
  by_cases h : i = j
  · subst h; simp
  · rw [if_neg h, if_neg]
    exact fun h' => h (Fin.ext h')

theorem Normal_congr {dir : Dir} {pinv η : ℝ} {n : ℕ} {ts : List (Ten ℂ)} {p p' : ℕ → ℕ → ℂ} (h : Normal dir pinv n ts η p) (hp : ∀ i < n, ∀ j < n, p i j = p' i j) :
    Normal dir pinv n ts η p' := by
  refine ⟨h.pos, ⟨fun i hi j hj => ?_, ?_, fun x hx => ?_⟩, fun i hi j hj => ?_, fun μ f h1 h2 h3 => ?_⟩
  · rw [← hp i hi j hj, ← hp j hj i hi]; exact h.dens.herm i hi j hj
  · rw [← h.dens.tr]; exact sum_congr rfl fun i hi => (hp i (mem_range.1 hi) i (mem_range.1 hi)).symm
  · have := h.dens.pos x hx
    rwa [sum_congr rfl fun i hi => sum_congr rfl fun j hj => by rw [hp i (mem_range.1 hi) j (mem_range.1 hj)]] at this
  · rw [← act_congr dir ts hp, h.eig i hi j hj, hp i hi j hj]
  · obtain ⟨c, hc⟩ := h.uniq μ f h1 h2 h3
    exact ⟨c, fun i hi j hj => by rw [hc i hi j hj, hp i hi j hj]⟩

section
variable {D : ℕ} {pinv η : ℝ} {M G A B : Ten ℂ} {lam : List ℝ} {p q : ℕ → ℕ → ℂ}

theorem SymGauge.trace (h : SymGauge D M G lam η) : ∑ i ∈ range D, rho lam i i = 1 := by
  rw [← Complex.ofReal_one, ← h.norm]
  push_cast
  exact sum_congr rfl fun i _ => by rw [rho_v, if_pos rfl, sq]

/-- Spec: `A=lam·gamma` and `B=gamma·lam` are the two isometric forms of the state, both with the density matrix `lam**2`. -/
structure Canon (D : ℕ) (A B : Ten ℂ) (lam : List ℝ) : Prop where
  Al : A.l = D
  Ar : A.r = D
  Bl : B.l = D
  Br : B.r = D
  dd : A.d = B.d
  len : lam.length = D
  pos : ∀ x ∈ lam, 0 < x
  left : LeftOrth A
  right : RightOrth B
  move : ∀ i < D, ∀ j < D, ∀ s < A.d, A.v i j s * ((lam.getD j 0 : ℝ) : ℂ) = ((lam.getD i 0 : ℝ) : ℂ) * B.v i j s
  normL : Normal .left 0 D [A] 1 (rho lam)
  normR : Normal .right 0 D [B] 1 (rho lam)

theorem orth_left (hl : A.l = D) (hr : A.r = D) (h : ∑ s ∈ range A.d, (mat D A s)ᴴ * mat D A s = 1) : LeftOrth A := by
  intro j hj j' hj'
  rw [hr] at hj hj'
  have := congrFun (congrFun h ⟨j, hj⟩) ⟨j', hj'⟩
  rw [← toM_delta, Matrix.sum_apply] at this
  simp only [Matrix.mul_apply, conjTranspose_apply, mat, toM] at this
  rw [hl]
  simp only [Finset.sum_range (n := D)]
  exact this

theorem orth_right (hl : A.l = D) (hr : A.r = D) (h : ∑ s ∈ range A.d, mat D A s * (mat D A s)ᴴ = 1) : RightOrth A := by
  intro j hj j' hj'
  rw [hl] at hj hj'
  have := congrFun (congrFun h ⟨j, hj⟩) ⟨j', hj'⟩
  rw [← toM_delta, Matrix.sum_apply] at this
  simp only [Matrix.mul_apply, conjTranspose_apply, mat, toM] at this
  rw [hr]
  simp only [Finset.sum_range (n := D)]
  exact this

theorem SymGauge.canon (h : SymGauge D M G lam η) (hp : 0 ≤ pinv) (hr : M.r = D) (hR : Normal .right pinv D [M] η q) (hL : Normal .left pinv D [M] η p)
    (hA : absorbL (diagMat lam) G = .ok A) (hB : absorbR G (diagMat lam) = .ok B) : Canon D A B lam := by
  have e1 := absorbL_eq hA
  have e2 := absorbR_eq hB
  have hAl : A.l = D := by rw [e1.2]; exact h.len
  have hAr : A.r = D := by rw [e1.2]; exact h.r
  have hAd : A.d = M.d := by rw [e1.2]; exact h.d
  have hBl : B.l = D := by rw [e2.2]; exact h.l
  have hBr : B.r = D := by rw [e2.2]; exact h.len
  have hBd : B.d = M.d := by rw [e2.2]; exact h.d
  have mA : ∀ s, mat D A s = toM D (diagMat lam).v * mat D G s := fun s => mat_absorbL hA h.len s
  have mB : ∀ s, mat D B s = mat D G s * toM D (diagMat lam).v := fun s => mat_absorbR hB h.r s
  have oA : ∑ s ∈ range M.d, (mat D A s)ᴴ * mat D A s = 1 := by simp_rw [mA]; exact h.orthL
  have oB : ∑ s ∈ range M.d, mat D B s * (mat D B s)ᴴ = 1 := by simp_rw [mB]; exact h.orthR
  have hΛ : (toM D (diagMat lam).v)ᴴ = toM D (diagMat lam).v := by
    rw [toM_diag, diagonal_conjTranspose]
    congr 1
    funext k
    exact Complex.conj_ofReal _
  have hmv : ∀ s, mat D A s * toM D (diagMat lam).v = toM D (diagMat lam).v * mat D B s := by
    intro s
    rw [mA, mB, Matrix.mul_assoc]
  set T := divT (Real.sqrt η) M with hT
  have hTr : T.r = D := hr
  have hη0 : (Real.sqrt η : ℂ) ≠ 0 := by exact_mod_cast (Real.sqrt_pos.2 hR.pos).ne'
  have mT : ∀ s, mat D M s = (Real.sqrt η : ℂ) • mat D T s := by
    intro s
    ext i j
    rw [Matrix.smul_apply]
    simp only [mat, hT, divT, smul_eq_mul]
    rw [mul_div_cancel₀ _ hη0]
  have nL := normM_left hp hTr (root_normal hL)
  have nR := normM_right hp hTr (root_normal hR)
  have hd0 : ∀ {a b : Matrix (Fin D) (Fin D) ℂ}, (Real.sqrt η : ℂ) • a = (Real.sqrt η : ℂ) • b → a = b := fun h' => by
    have := congrArg (fun z => (Real.sqrt η : ℂ)⁻¹ • z) h'
    rwa [smul_smul, smul_smul, inv_mul_cancel₀ hη0, one_smul, one_smul] at this
  have htr : (toM D (rho lam)).trace = 1 := by
    rw [← h.trace, Finset.sum_range]; rfl
  have hne : toM D (rho lam) ≠ 0 := by
    intro h0
    rw [h0, trace_zero] at htr
    exact zero_ne_one htr
  have key : ∀ {d : ℕ} {N : ℕ → Matrix (Fin D) (Fin D) ℂ} {P : Matrix (Fin D) (Fin D) ℂ}, NormM D d N 1 P → ∑ s ∈ range d, N s * toM D (rho lam) * (N s)ᴴ = toM D (rho lam) →
      P = toM D (rho lam) := by
    intro d N P hN hfix
    obtain ⟨c, hc⟩ := hN.uniq 1 (toM D (rho lam)) hne (by rw [one_smul]; exact hfix) (by simp)
    have := congrArg Matrix.trace hc
    rw [trace_smul, hN.tr, htr, smul_eq_mul, mul_one] at this
    rw [hc, ← this, one_smul]
  refine ⟨hAl, hAr, hBl, hBr, hAd.trans hBd.symm, h.len, h.pos, orth_left hAl hAr (by rw [hAd]; exact oA), orth_right hBl hBr (by rw [hBd]; exact oB), ?_, ?_, ?_⟩
  · intro i hi j hj s _
    have := congrFun (congrFun (hmv s) ⟨i, hi⟩) ⟨j, hj⟩
    rw [toM_diag, mul_diagonal, diagonal_mul] at this
    exact this
  · obtain ⟨X, Y, hXY, hg⟩ := h.gaugeL
    obtain ⟨P, hP⟩ := nL.gauge (M' := mat D A) hXY fun s => by
      refine hd0 ?_
      rw [mA, hg, mT, Matrix.mul_smul, Matrix.smul_mul]
    have hP' := key hP (by
      rw [show T.d = M.d from rfl]
      have : ∀ s, mat D A s * toM D (rho lam) * (mat D A s)ᴴ = toM D (diagMat lam).v * (mat D B s * (mat D B s)ᴴ) * toM D (diagMat lam).v := by
        intro s
        have h2 : (toM D (diagMat lam).v)ᴴ * (mat D A s)ᴴ = (mat D B s)ᴴ * (toM D (diagMat lam).v)ᴴ := by
          rw [← conjTranspose_mul, ← conjTranspose_mul, hmv]
        rw [hΛ] at h2
        rw [toM_rho, ← Matrix.mul_assoc, hmv, Matrix.mul_assoc _ _ (mat D A s)ᴴ, h2]
        simp only [Matrix.mul_assoc]
      simp_rw [this]
      rw [← Matrix.sum_mul, ← Matrix.mul_sum, oB, Matrix.mul_one, toM_rho])
    rw [show T.d = A.d from hAd.symm, hP'] at hP
    exact Normal_congr (left_normM hAr hP) fun i hi j hj => by simp [fromM, hi, hj, toM]
  · obtain ⟨X, Y, hXY, hg⟩ := h.gaugeR
    obtain ⟨P, hP⟩ := nR.gauge (X := Yᴴ) (Y := Xᴴ) (M' := fun s => (mat D B s)ᴴ) (by rw [← conjTranspose_mul, hXY, conjTranspose_one]) fun s => by
      have : mat D B s = X * mat D T s * Y := by
        refine hd0 ?_
        rw [mB, hg, mT, Matrix.mul_smul, Matrix.smul_mul]
      rw [this, conjTranspose_mul, conjTranspose_mul, Matrix.mul_assoc]
    have hP' := key hP (by
      rw [show T.d = M.d from rfl]
      have : ∀ s, (mat D B s)ᴴ * toM D (rho lam) * (mat D B s)ᴴᴴ = toM D (diagMat lam).v * ((mat D A s)ᴴ * mat D A s) * toM D (diagMat lam).v := by
        intro s
        have h2 : (toM D (diagMat lam).v)ᴴ * (mat D A s)ᴴ = (mat D B s)ᴴ * (toM D (diagMat lam).v)ᴴ := by
          rw [← conjTranspose_mul, ← conjTranspose_mul, hmv]
        rw [hΛ] at h2
        rw [conjTranspose_conjTranspose, toM_rho, ← Matrix.mul_assoc, ← h2, Matrix.mul_assoc _ _ (mat D B s), ← hmv]
        simp only [Matrix.mul_assoc]
      simp_rw [this]
      rw [← Matrix.sum_mul, ← Matrix.mul_sum, oA, Matrix.mul_one, toM_rho])
    rw [show T.d = B.d from hBd.symm, hP'] at hP
    exact Normal_congr (right_normM hBr hP) fun i hi j hj => by
      have : rho lam j i = rho lam i j := by
        rw [rho_v, rho_v]
        by_cases h0 : i = j
        · subst h0; rfl
        · rw [if_neg h0, if_neg (Ne.symm h0)]
      simp [fromM, hi, hj, toM, this]

end

/-! ## The energy of the two halves -/

section
variable {D B f : ℕ} {A Bt b : Ten ℂ} {V W : Mpo ℂ} {E L R : Env ℂ} {g : ℕ → ℂ}

theorem contr_one (hu : E.u = b.l) (hw : E.w = b.l) (hm : E.m = V.l) (hd : b.d = V.din) (hd' : V.dout = b.d) {j j' c : ℕ} (hj : j < b.r) (hj' : j' < b.r) (hc : c < V.r) :
    contrL E [b] [V] [b] j j' c = ∑ i ∈ range b.l, ∑ i' ∈ range b.l, ∑ a ∈ range V.l, ∑ x ∈ range b.d, ∑ y ∈ range b.d,
      E.v i i' a * b.v i j x * V.v a c x y * star (b.v i' j' y) := by
  have hF : addLayerR E b V b = .ok _ := if_pos ⟨hu, hm, hd, hw, hd'⟩
  rw [contrL_cons hF, contrL_nil _ hj hj' hc]
  dsimp only
  rw [hu, hw, hm]

theorem last_v (hB : V.l = B) (hd : b.d = V.din) (hd' : V.dout = b.d) (hr : b.r = D) {s j j' c : ℕ} (hs : s < B) (hj : j < D) (hj' : j' < D) (hc : c < V.r) :
    (lastEnv D s B b V).v j j' c = ∑ i ∈ range b.l, ∑ x ∈ range b.d, ∑ y ∈ range b.d, b.v i j x * V.v s c x y * star (b.v i j' y) := by
  change contrL (openEnv b.l s B) [b] [V] [b] j j' c = _
  rw [contr_one rfl rfl hB.symm hd hd' (by rw [hr]; exact hj) (by rw [hr]; exact hj') hc]
  refine sum_congr rfl fun i hi => ?_
  rw [sum_eq_single i, sum_eq_single s]
  · simp [openEnv]
  · intro a _ ha
    simp [openEnv, delta, ha]
  · intro h; exact absurd (mem_range.2 (by rw [hB]; exact hs)) h
  · intro a _ ha
    simp [openEnv, delta, ha.symm]
  · intro h; exact absurd hi h

/-- The expectation value of a block with a further site is that of the block joined to the mirrored block of the site. -/
theorem join_site (hl : A.l = D) (hr : A.r = D) (hl' : Bt.l = D) (hr' : Bt.r = D) (hdd : A.d = Bt.d) (hB : V.l = B) (hBr : V.r = B) (hd : A.d = V.din) (hd' : V.dout = A.d)
    (hg : ∀ i, star (g i) = g i) (hmv : ∀ i < D, ∀ j < D, ∀ s < A.d, A.v i j s * g j = g i * Bt.v i j s)
    (hu : E.u = D) (hw : E.w = D) (hm : E.m = B) (hf : f < B) :
    ∑ j ∈ range D, contrL E [A] [V] [A] j j f * (g j * g j) =
      ∑ i ∈ range D, ∑ i' ∈ range D, ∑ a ∈ range B, g i * g i' * (E.v i i' a * (lastEnv D f B (rT Bt) (rW V)).v i i' a) := by
  have e1 : ∀ j ∈ range D, contrL E [A] [V] [A] j j f * (g j * g j) = ∑ i ∈ range D, ∑ i' ∈ range D, ∑ a ∈ range B, ∑ x ∈ range A.d, ∑ y ∈ range A.d,
      g i * g i' * E.v i i' a * (Bt.v i j x * V.v a f x y * star (Bt.v i' j y)) := by
    intro j hj
    have hj := mem_range.1 hj
    rw [contr_one (hu.trans hl.symm) (hw.trans hl.symm) (hm.trans hB.symm) hd hd' (by rw [hr]; exact hj) (by rw [hr]; exact hj) (by rw [hBr]; exact hf), hl, hB]
    simp only [sum_mul]
    refine sum_congr rfl fun i hi => sum_congr rfl fun i' hi' => sum_congr rfl fun a _ => sum_congr rfl fun x hx => sum_congr rfl fun y hy => ?_
    have h1 := hmv i (mem_range.1 hi) j hj x (mem_range.1 hx)
    have h2 := congrArg star (hmv i' (mem_range.1 hi') j hj y (mem_range.1 hy))
    rw [star_mul', star_mul', hg, hg] at h2
    linear_combination E.v i i' a * V.v a f x y * star (A.v i' j y) * g j * h1 + E.v i i' a * V.v a f x y * g i * Bt.v i j x * h2
  rw [sum_congr rfl e1, sum_comm]
  refine sum_congr rfl fun i hi => ?_
  rw [sum_comm]
  refine sum_congr rfl fun i' hi' => ?_
  rw [sum_comm]
  refine sum_congr rfl fun a ha => ?_
  rw [last_v (b := rT Bt) (V := rW V) hBr (hdd.symm.trans hd) (hd'.trans hdd) hl' hf (mem_range.1 hi) (mem_range.1 hi') (by change a < V.l; rw [hB]; exact mem_range.1 ha)]
  simp only [rT, rW, mul_sum, hr', hdd]
  refine sum_congr rfl fun j _ => sum_congr rfl fun x _ => sum_congr rfl fun y _ => ?_
  ring

theorem pair_diag (h : ℕ → ℕ → ℂ) (lam : List ℝ) : pairing D h (rho lam) = ∑ j ∈ range D, h j j * (((lam.getD j 0 : ℝ) : ℂ) * ((lam.getD j 0 : ℝ) : ℂ)) := by
  unfold pairing
  refine sum_congr rfl fun i hi => ?_
  rw [sum_eq_single i]
  · rw [rho_v, if_pos rfl]
  · intro j _ hj
    rw [rho_v, if_neg hj.symm, mul_zero]
  · intro h'; exact absurd hi h'

end

section
variable {D B : ℕ} {A Bt : Ten ℂ} {W : Mpo ℂ} {lam : List ℝ} {L R : Env ℂ} {e e' : ℂ} {k k' : ℕ → ℕ → ℂ}

/-- Spec: the expectation value of the two halves of the chain joined at a bond. -/
def bondE (D B : ℕ) (lam : List ℝ) (L R : Env ℂ) : ℂ :=
  ∑ i ∈ range D, ∑ i' ∈ range D, ∑ c ∈ range B, ((lam.getD i 0 : ℝ) : ℂ) * ((lam.getD i' 0 : ℝ) : ℂ) * (L.v i i' c * R.v i i' c)

/-- The two halves without the renormalised parts. -/
def halfL (D B : ℕ) (A : Ten ℂ) (W : Mpo ℂ) : Env ℂ := lastEnv D (B - 1) B A (halfW 0 (B - 1) W)
def halfR (D B : ℕ) (Bt : Ten ℂ) (W : Mpo ℂ) : Env ℂ := lastEnv D 0 B (rT Bt) (rW (halfW 0 (B - 1) W))

theorem Canon.rev (h : Canon D A Bt lam) {i j s : ℕ} (hi : i < D) (hj : j < D) (hs : s < A.d) :
    (rT Bt).v i j s * ((lam.getD j 0 : ℝ) : ℂ) = ((lam.getD i 0 : ℝ) : ℂ) * (rT A).v i j s := by
  have := h.move j hj i hi s hs
  simp only [rT]
  linear_combination -this

theorem two_left (h : Canon D A Bt lam) (hW : NNSite 0 (B - 1) B W) (hd : A.d = W.din) :
    pairing D (twoSites D 0 (B - 1) B A W) (rho lam) = bondE D B lam (halfL D B A W) (halfR D B Bt W) := by
  rw [pair_diag]
  exact join_site (V := halfW 0 (B - 1) W) (E := halfL D B A W) h.Al h.Ar h.Bl h.Br h.dd hW.l hW.r hd (hW.dd.trans hd.symm) (fun i => Complex.conj_ofReal _) h.move rfl rfl rfl hW.fB

theorem two_right (h : Canon D A Bt lam) (hW : NNSite 0 (B - 1) B W) (hd : A.d = W.din) :
    pairing D (twoSites D (B - 1) 0 B (rT Bt) (rW W)) (rho lam) = bondE D B lam (halfL D B A W) (halfR D B Bt W) := by
  rw [pair_diag]
  have := join_site (A := rT Bt) (Bt := rT A) (V := halfW (B - 1) 0 (rW W)) (E := lastEnv D 0 B (rT Bt) (halfW (B - 1) 0 (rW W))) (g := fun i => ((lam.getD i 0 : ℝ) : ℂ))
    h.Br h.Bl h.Ar h.Al h.dd.symm hW.r hW.l (h.dd.symm.trans hd) (hW.dd.trans (hd.symm.trans h.dd)) (fun i => Complex.conj_ofReal _)
    (fun i hi j hj s hs => h.rev hi hj (by rw [h.dd]; exact hs)) rfl rfl rfl hW.sB
  refine Eq.trans this ?_
  unfold bondE halfL halfR
  rw [rW_half]
  refine sum_congr rfl fun i _ => sum_congr rfl fun i' _ => sum_congr rfl fun c _ => ?_
  rw [show rT (rT A) = A from rfl, show rW (rW W) = W from rfl, ← rW_half]
  ring

/-- The blocks are the halves and the renormalised parts. -/
theorem blk_half {f s : ℕ} {b : Ten ℂ} {V : Mpo ℂ} {p q : ℕ → ℕ → ℂ} (hV : NNSite f s B V) (hl : b.l = D) (hb : Blk D f s B b V p q L e k) :
    ∀ i < D, ∀ i' < D, ∀ c < B, L.v i i' c = (lastEnv D s B b (halfW f s V)).v i i' c + if c = f then k i i' else 0 := by
  intro i hi i' hi' c hc
  by_cases h : c = f
  · subst h
    rw [if_pos rfl, hb.fin i hi i' hi', ← half_onsite hV hl]
    rfl
  · rw [if_neg h, add_zero, hb.mid c hc h i hi i' hi', half_mid hV hc h]

theorem Canon.fixL (h : Canon D A Bt lam) : ∀ i < D, ∀ j < D, act .left [A] D (rho lam) i j = rho lam i j := normal_fix h.normL
theorem Canon.fixR (h : Canon D A Bt lam) : ∀ i < D, ∀ j < D, act .right [Bt] D (rho lam) i j = rho lam i j := normal_fix h.normR
theorem Canon.tr (h : Canon D A Bt lam) : ∑ i ∈ range D, rho lam i i = 1 := h.normL.dens.tr

theorem bond_energy (h : Canon D A Bt lam) (hW : NNSite 0 (B - 1) B W) (hd : A.d = W.din) (hL : Blk D 0 (B - 1) B A W (rho lam) (rho lam) L e k)
    (hR : Blk D (B - 1) 0 B (rT Bt) (rW W) (rho lam) (rho lam) R e' k') : e' = e ∧ bondE D B lam L R = e := by
  have hdB : Bt.d = W.din := h.dd.symm.trans hd
  have hee : e' = e := by rw [hL.en, hR.en, two_left h hW hd, two_right h hW hd]
  refine ⟨hee, ?_⟩
  have hk := (block_fixed hW hd h.Al h.Ar h.left h.fixL (pair_delta h.tr) hL.en hL.sys hL.u hL.w hL.m hL.mid hL.fin).1
  have hfix' : ∀ i < D, ∀ j < D, act .left [rT Bt] D (rho lam) i j = rho lam i j := fun i hi j hj =>
    (act_mirror' (by simp) (one_linked' h.Bl h.Br) _ hi hj).trans (h.fixR i hi j hj)
  have hk' := (block_fixed (b := rT Bt) (rW_site hW) hdB h.Br h.Bl (rT_orth h.right) hfix' (pair_delta h.tr) hR.en hR.sys hR.u hR.w hR.m hR.mid hR.fin).1
  have vL := blk_half hW h.Al hL
  have vR := blk_half (b := rT Bt) (rW_site hW) h.Br hR
  have sL : ∀ i < D, ∀ i' < D, (halfL D B A W).v i i' (B - 1) = delta ℂ i i' := last_start (half_cell hW hd) h.Ar h.left hW.sB
  have sR : ∀ i < D, ∀ i' < D, (halfR D B Bt W).v i i' 0 = delta ℂ i i' := by
    unfold halfR
    rw [rW_half]
    exact last_start (b := rT Bt) (half_cell (rW_site hW) hdB) h.Bl (rT_orth h.right) hW.fB
  have e1 : bondE D B lam L R = bondE D B lam (halfL D B A W) (halfR D B Bt W) + pairing D k (rho lam) + pairing D k' (rho lam) := by
    rw [pair_diag, pair_diag]
    unfold bondE
    have key : ∀ i ∈ range D, ∀ i' ∈ range D, ∑ c ∈ range B, ((lam.getD i 0 : ℝ) : ℂ) * ((lam.getD i' 0 : ℝ) : ℂ) * (L.v i i' c * R.v i i' c) =
        ∑ c ∈ range B, ((lam.getD i 0 : ℝ) : ℂ) * ((lam.getD i' 0 : ℝ) : ℂ) * ((halfL D B A W).v i i' c * (halfR D B Bt W).v i i' c)
          + ((lam.getD i 0 : ℝ) : ℂ) * ((lam.getD i' 0 : ℝ) : ℂ) * (delta ℂ i i' * (k i i' + k' i i')) := by
      intro i hi i' hi'
      have hi := mem_range.1 hi
      have hi' := mem_range.1 hi'
      have : ∀ c ∈ range B, ((lam.getD i 0 : ℝ) : ℂ) * ((lam.getD i' 0 : ℝ) : ℂ) * (L.v i i' c * R.v i i' c) =
          ((lam.getD i 0 : ℝ) : ℂ) * ((lam.getD i' 0 : ℝ) : ℂ) * ((halfL D B A W).v i i' c * (halfR D B Bt W).v i i' c)
          + ((if c = 0 then ((lam.getD i 0 : ℝ) : ℂ) * ((lam.getD i' 0 : ℝ) : ℂ) * (delta ℂ i i' * k i i') else 0)
          + if c = B - 1 then ((lam.getD i 0 : ℝ) : ℂ) * ((lam.getD i' 0 : ℝ) : ℂ) * (delta ℂ i i' * k' i i') else 0) := by
        intro c hc
        have hc := mem_range.1 hc
        rw [vL i hi i' hi' c hc, vR i hi i' hi' c hc, ← rW_half]
        change _ * (((halfL D B A W).v i i' c + _) * ((halfR D B Bt W).v i i' c + _)) = _
        by_cases h0 : c = 0
        · subst h0
          rw [if_pos rfl, if_neg hW.ne, if_pos rfl, if_neg hW.ne, sR i hi i' hi']
          ring
        · rw [if_neg h0, if_neg h0]
          by_cases h1 : c = B - 1
          · rw [if_pos h1, if_pos h1, h1, sL i hi i' hi']
            ring
          · rw [if_neg h1, if_neg h1]
            ring
      rw [sum_congr rfl this, sum_add_distrib, sum_add_distrib, sum_ite_eq' (range B) 0, sum_ite_eq' (range B) (B - 1), if_pos (mem_range.2 hW.fB), if_pos (mem_range.2 hW.sB)]
      ring
    rw [sum_congr rfl fun i hi => sum_congr rfl fun i' hi' => key i hi i' hi']
    simp only [sum_add_distrib]
    rw [add_assoc]
    congr 1
    rw [← sum_add_distrib]
    refine sum_congr rfl fun i hi => ?_
    rw [sum_eq_single i]
    · rw [delta_self]; ring
    · intro i' _ h'
      simp [delta, h'.symm]
    · intro h'; exact absurd hi h'
  rw [e1, hk, hk', ← two_left h hW hd, ← hL.en]
  ring

/-- The expectation value of the effective Hamiltonian is that of two sites. -/
theorem form_energy (h : Canon D A Bt lam) (hW : NNSite 0 (B - 1) B W) (hd : A.d = W.din) (hL : Blk D 0 (B - 1) B A W (rho lam) (rho lam) L e k)
    (hR : Blk D (B - 1) 0 B (rT Bt) (rW W) (rho lam) (rho lam) R e' k') {T : Ten ℂ} (hTl : T.l = D) (hTr : T.r = D) (hTd : T.d = A.d)
    (hT : ∀ i < D, ∀ j < D, ∀ s < A.d, T.v i j s = A.v i j s * ((lam.getD j 0 : ℝ) : ℂ)) : siteForm L W R T T = 2 * e := by
  obtain ⟨-, hbe⟩ := bond_energy h hW hd hL hR
  have hfx := (block_fixed hW hd h.Al h.Ar h.left h.fixL (pair_delta h.tr) hL.en hL.sys hL.u hL.w hL.m hL.mid hL.fin).2
  have sR : ∀ i < D, ∀ i' < D, R.v i i' 0 = delta ℂ i i' := by
    intro i hi i' hi'
    rw [hR.mid _ hW.fB hW.ne i hi i' hi']
    exact last_start (b := rT Bt) (one_cell (rW_site hW) (h.dd.symm.trans hd)) h.Bl (rT_orth h.right) hW.fB i hi i' hi'
  have e1 : siteForm L W R T T = ∑ j ∈ range D, ∑ j' ∈ range D, ∑ c ∈ range B, ((lam.getD j 0 : ℝ) : ℂ) * ((lam.getD j' 0 : ℝ) : ℂ) * (contrL L [A] [W] [A] j j' c * R.v j j' c) := by
    unfold siteForm siteEl
    rw [hTl, hTr, hTd, hL.m, hR.m, sum_swap22]
    refine sum_congr rfl fun j hj => sum_congr rfl fun j' hj' => ?_
    have hj := mem_range.1 hj
    have hj' := mem_range.1 hj'
    have e2 : ∀ c ∈ range B, ((lam.getD j 0 : ℝ) : ℂ) * ((lam.getD j' 0 : ℝ) : ℂ) * (contrL L [A] [W] [A] j j' c * R.v j j' c) =
        ∑ i ∈ range D, ∑ i' ∈ range D, ∑ a ∈ range B, ∑ x ∈ range A.d, ∑ y ∈ range A.d,
          L.v i i' a * W.v a c x y * R.v j j' c * T.v i j x * star (T.v i' j' y) := by
      intro c hc
      rw [contr_one (hL.u.trans h.Al.symm) (hL.w.trans h.Al.symm) (hL.m.trans hW.l.symm) hd (hW.dd.trans hd.symm) (by rw [h.Ar]; exact hj) (by rw [h.Ar]; exact hj')
        (by rw [hW.r]; exact mem_range.1 hc), h.Al, hW.l]
      simp only [sum_mul, mul_sum]
      refine sum_congr rfl fun i hi => sum_congr rfl fun i' hi' => sum_congr rfl fun a _ => sum_congr rfl fun x hx => sum_congr rfl fun y hy => ?_
      rw [hT i (mem_range.1 hi) j hj x (mem_range.1 hx), hT i' (mem_range.1 hi') j' hj' y (mem_range.1 hy), star_mul',
        show star (((lam.getD j' 0 : ℝ) : ℂ)) = ((lam.getD j' 0 : ℝ) : ℂ) from Complex.conj_ofReal _]
      ring
    rw [sum_congr rfl e2]
    symm
    rw [sum_comm]
    refine sum_congr rfl fun i hi => ?_
    rw [sum_comm]
    refine sum_congr rfl fun i' hi' => ?_
    rw [sum_swap22]
    refine sum_congr rfl fun x _ => sum_congr rfl fun y _ => ?_
    symm
    simp only [sum_mul]
    exact sum_comm
  have e3 : ∀ j ∈ range D, ∀ j' ∈ range D, ∑ c ∈ range B, ((lam.getD j 0 : ℝ) : ℂ) * ((lam.getD j' 0 : ℝ) : ℂ) * (contrL L [A] [W] [A] j j' c * R.v j j' c) =
      ∑ c ∈ range B, ((lam.getD j 0 : ℝ) : ℂ) * ((lam.getD j' 0 : ℝ) : ℂ) * (L.v j j' c * R.v j j' c) + e * (delta ℂ j j' * rho lam j j') := by
    intro j hj j' hj'
    have hj := mem_range.1 hj
    have hj' := mem_range.1 hj'
    have : ∀ c ∈ range B, ((lam.getD j 0 : ℝ) : ℂ) * ((lam.getD j' 0 : ℝ) : ℂ) * (contrL L [A] [W] [A] j j' c * R.v j j' c) =
        ((lam.getD j 0 : ℝ) : ℂ) * ((lam.getD j' 0 : ℝ) : ℂ) * (L.v j j' c * R.v j j' c) + if c = 0 then e * (delta ℂ j j' * rho lam j j') else 0 := by
      intro c hc
      rw [hfx j hj j' hj' c (mem_range.1 hc)]
      by_cases h0 : c = 0
      · rw [if_pos h0, if_pos h0, h0, sR j hj j' hj', rho_v]
        by_cases hjj : j = j'
        · subst hjj
          rw [if_pos rfl, delta_self]
          ring
        · rw [if_neg hjj]
          simp [delta, hjj]
      · rw [if_neg h0, if_neg h0]
        ring
    rw [sum_congr rfl this, sum_add_distrib, sum_ite_eq' (range B) 0, if_pos (mem_range.2 hW.fB)]
  rw [e1, sum_congr rfl fun j hj => sum_congr rfl fun j' hj' => e3 j hj j' hj']
  simp only [sum_add_distrib]
  have e4 : ∑ j ∈ range D, ∑ j' ∈ range D, delta ℂ j j' * rho lam j j' = 1 := pair_delta h.tr
  rw [show ∑ j ∈ range D, ∑ j' ∈ range D, ∑ c ∈ range B, ((lam.getD j 0 : ℝ) : ℂ) * ((lam.getD j' 0 : ℝ) : ℂ) * (L.v j j' c * R.v j j' c) = e from hbe]
  simp only [← mul_sum]
  rw [e4]
  ring

end

end
end PyTeN.GradOpt
