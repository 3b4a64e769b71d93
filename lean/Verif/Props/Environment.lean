import Verif.Env.OpChain
import Verif.Mps.Ghz

/-! # C30: environments are full contractions -/

namespace PyTeN
open Finset

section
variable {K : Type*} [CommSemiring K] [StarRing K]

/-- **C30**, left: the block number `n` of `getL(mps,mpo,lb)` is the sum over all configurations of the
sites `0..n` of upper amplitude, MPO element and conjugate lower amplitude. -/
theorem C30_getL {mps : List (Ten K)} {mpo : List (Mpo K)} {lb : Env K} {Ls : List (Env K)}
    (h : getL mps mpo lb = .ok Ls) :
    Ls.length = mps.length ∧ ∀ n L, Ls[n]? = some L →
      Linked lb.u (mps.take (n + 1)) L.u ∧ Linked lb.w (mps.take (n + 1)) L.w ∧
      MLinked lb.m (mpo.take (n + 1)) L.m ∧
      ∀ j < L.u, ∀ j' < L.w, ∀ b' < L.m, L.v j j' b' =
        sumCfg ((mps.take (n + 1)).map Ten.d) fun s => sumCfg ((mps.take (n + 1)).map Ten.d) fun s' =>
          ∑ i ∈ range lb.u, ∑ i' ∈ range lb.w, ∑ b ∈ range lb.m,
            lb.v i i' b * chain (mps.take (n + 1)) s i j * mchain (mpo.take (n + 1)) s s' b b' *
              star (chain (mps.take (n + 1)) s' i' j') := by
  unfold getL at h
  split_ifs at h
  obtain ⟨a1, -, -, a4⟩ := blocksR_spec _ _ _ _ _ h
  refine ⟨a1, fun n L hL => ?_⟩
  have := a4 n L hL
  exact ⟨this.u, this.w, this.m, this.v⟩

omit [CommSemiring K] [StarRing K] in
theorem reverse_take_reverse {α : Type*} (l : List α) (n : ℕ) :
    (l.reverse.take n).reverse = l.drop (l.length - n) := by
  rw [List.take_reverse, List.reverse_reverse]

theorem getR_isR {mps : List (Ten K)} {mpo : List (Mpo K)} {rb : Env K} {Rs : List (Env K)}
    (hlen : mpo.length = mps.length) (h : getR mps mpo rb = .ok Rs) :
    Rs.length = mps.length ∧ ∀ n R, Rs[n]? = some R →
      IsR rb (mps.drop (mps.length - (n + 1))) (mpo.drop (mps.length - (n + 1)))
        (mps.drop (mps.length - (n + 1))) R := by
  unfold getR at h
  rw [if_neg (by rintro rfl; simp at h)] at h
  split at h
  · cases h
  rename_i w hw
  rw [if_neg (by omega)] at h
  have hm : w :: (mpo.take (mps.length - 1)).reverse = mpo.reverse := by
    obtain ⟨as, rfl⟩ := List.getLast?_eq_some_iff.mp hw
    rw [← hlen]; simp
  rw [hm] at h
  obtain ⟨a1, -, -, a4⟩ := blocksL_spec _ _ _ _ _ h
  refine ⟨by simpa using a1, fun n R hR => ?_⟩
  have := a4 n R hR
  rw [reverse_take_reverse, reverse_take_reverse, hlen] at this
  exact this

/-- **C30**, right: the block number `n` of `getR(mps,mpo,rb)` is the sum over all configurations of the
last `n+1` sites. -/
theorem C30_getR {mps : List (Ten K)} {mpo : List (Mpo K)} {rb : Env K} {Rs : List (Env K)}
    (hlen : mpo.length = mps.length) (h : getR mps mpo rb = .ok Rs) :
    Rs.length = mps.length ∧ ∀ n R, Rs[n]? = some R →
      ∀ i < R.u, ∀ i' < R.w, ∀ b < R.m, R.v i i' b =
        sumCfg ((mps.drop (mps.length - (n + 1))).map Ten.d) fun s =>
        sumCfg ((mps.drop (mps.length - (n + 1))).map Ten.d) fun s' =>
          ∑ j ∈ range rb.u, ∑ j' ∈ range rb.w, ∑ b' ∈ range rb.m,
            rb.v j j' b' * chain (mps.drop (mps.length - (n + 1))) s i j *
              mchain (mpo.drop (mps.length - (n + 1))) s s' b b' *
              star (chain (mps.drop (mps.length - (n + 1))) s' i' j') := by
  obtain ⟨a1, a4⟩ := getR_isR hlen h
  exact ⟨a1, fun n R hR => (a4 n R hR).v⟩

omit [CommSemiring K] [StarRing K] in
theorem linked_unique {l r l' r' : ℕ} {ts : List (Ten K)} (h : Linked l ts r) (h' : Linked l' ts r')
    (hne : ts ≠ []) : l = l' ∧ r = r' := by
  cases ts with
  | nil => exact absurd rfl hne
  | cons t ts => exact ⟨h.1.symm.trans h'.1, by rw [← linked_rdim h.2, ← linked_rdim h'.2]⟩

omit [CommSemiring K] [StarRing K] in
theorem mlinked_right {l r r' : ℕ} {ts : List (Mpo K)} (h : MLinked l ts r) (h' : MLinked l ts r') : r = r' := by
  induction ts generalizing l with
  | nil => simp only [MLinked] at h h'; omega
  | cons t ts ih => exact ih h.2 h'.2

omit [CommSemiring K] [StarRing K] in
theorem mlinked_unique {l r l' r' : ℕ} {ts : List (Mpo K)} (h : MLinked l ts r) (h' : MLinked l' ts r')
    (hne : ts ≠ []) : l = l' ∧ r = r' := by
  cases ts with
  | nil => exact absurd rfl hne
  | cons t ts => exact ⟨h.1.symm.trans h'.1, mlinked_right h.2 h'.2⟩

omit [CommSemiring K] [StarRing K] in
theorem linked_take_drop {l r l' r' : ℕ} {ts : List (Ten K)} {n a b : ℕ} (h : Linked l ts r)
    (h' : Linked l' ts r') (hne : ts ≠ [])
    (h1 : Linked l (ts.take n) a) (h2 : Linked b (ts.drop n) r') : a = b := by
  obtain ⟨rfl, rfl⟩ := linked_unique h h' hne
  rw [← List.take_append_drop n ts, linked_append] at h
  obtain ⟨m, h3, h4⟩ := h
  have e1 : a = m := by rw [← linked_rdim h1, linked_rdim h3]
  rw [e1]
  by_cases hd : ts.drop n = []
  · rw [hd] at h2 h4; simp only [Linked] at h2 h4; omega
  · exact (linked_unique h4 h2 hd).1

omit [CommSemiring K] [StarRing K] in
theorem mlinked_take_drop {l r l' r' : ℕ} {ts : List (Mpo K)} {n a b : ℕ} (h : MLinked l ts r)
    (h' : MLinked l' ts r') (hne : ts ≠ [])
    (h1 : MLinked l (ts.take n) a) (h2 : MLinked b (ts.drop n) r') : a = b := by
  obtain ⟨rfl, rfl⟩ := mlinked_unique h h' hne
  rw [← List.take_append_drop n ts, mlinked_append] at h
  obtain ⟨m, h3, h4⟩ := h
  rw [mlinked_right h1 h3]
  by_cases hd : ts.drop n = []
  · rw [hd] at h2 h4; simp only [MLinked] at h2 h4; omega
  · exact (mlinked_unique h4 h2 hd).1

theorem getL_isL {mps : List (Ten K)} {mpo : List (Mpo K)} {lb : Env K} {Ls : List (Env K)}
    (hL : getL mps mpo lb = .ok Ls) : Ls.length = mps.length ∧ ∀ n L, (lb :: Ls)[n]? = some L →
      IsL lb (mps.take n) (mpo.take n) (mps.take n) L := by
  unfold getL at hL
  split_ifs at hL
  obtain ⟨b1, -, -, b4⟩ := blocksR_spec _ _ _ _ _ hL
  refine ⟨b1, fun n L h => ?_⟩
  cases n with
  | zero => simp at h; subst h; exact isL_nil _
  | succ n => exact b4 n L (by simpa using h)

theorem getR_isR' {mps : List (Ten K)} {mpo : List (Mpo K)} {rb : Env K} {Rs : List (Env K)}
    (hlen : mpo.length = mps.length) (hR : getR mps mpo rb = .ok Rs) {n : ℕ} (hn : n ≤ mps.length) {R : Env K}
    (h : (rb :: Rs)[mps.length - n]? = some R) : IsR rb (mps.drop n) (mpo.drop n) (mps.drop n) R := by
  obtain ⟨-, a4⟩ := getR_isR hlen hR
  rcases Nat.lt_or_ge n mps.length with h1 | h1
  · rw [show mps.length - n = (mps.length - n - 1) + 1 by omega, List.getElem?_cons_succ] at h
    have := a4 _ R h
    rwa [show mps.length - (mps.length - n - 1 + 1) = n by omega] at this
  · rw [show mps.length - n = 0 by omega] at h
    simp only [List.getElem?_cons_zero, Option.some.injEq] at h
    subst h
    rw [List.drop_eq_nil_of_le h1, List.drop_eq_nil_of_le (by omega)]
    exact isR_nil _

/-- Both sweeps over a non-empty chain succeed: all bonds match. -/
theorem getLR_dims {mps : List (Ten K)} {mpo : List (Mpo K)} {lb rb : Env K} {Ls Rs : List (Env K)}
    (hlen : mpo.length = mps.length) (hL : getL mps mpo lb = .ok Ls) (hR : getR mps mpo rb = .ok Rs) :
    mps ≠ [] ∧ Linked lb.u mps rb.u ∧ Linked lb.w mps rb.w ∧ MLinked lb.m mpo rb.m ∧ Fits mps mpo mps := by
  have hne : mps ≠ [] := by rintro rfl; simp [getL] at hL
  obtain ⟨b1, b2⟩ := getL_isL hL
  obtain ⟨a1, -⟩ := getR_isR hlen hR
  obtain ⟨G, iF⟩ : ∃ G, IsL lb mps mpo mps G := by
    have := b2 mps.length _ (List.getElem?_eq_getElem (by simp; omega))
    rw [List.take_length, List.take_of_length_le (l := mpo) (by omega)] at this
    exact ⟨_, this⟩
  obtain ⟨H, iH⟩ : ∃ H, IsR rb mps mpo mps H := by
    have := getR_isR' hlen hR (n := 0) (by omega) (List.getElem?_eq_getElem (by simp; omega))
    exact ⟨_, this⟩
  have hne' : mpo ≠ [] := by rintro rfl; exact hne (List.length_eq_zero_iff.mp hlen.symm)
  refine ⟨hne, (linked_unique iF.u iH.u hne).2 ▸ iF.u, (linked_unique iF.w iH.w hne).2 ▸ iF.w,
    (mlinked_unique iF.m iH.m hne').2 ▸ iF.m, iF.fits⟩

/-- **C30**, cut independence: for every cut `0 ≤ n ≤ N` the left block of the first `n` sites (the left
boundary for `n = 0`) paired with the right block of the other sites is the contraction of the whole
network, so it does not depend on the cut. -/
theorem C30_cut {mps : List (Ten K)} {mpo : List (Mpo K)} {lb rb : Env K} {Ls Rs : List (Env K)}
    (hlen : mpo.length = mps.length) (hL : getL mps mpo lb = .ok Ls) (hR : getR mps mpo rb = .ok Rs)
    {n : ℕ} (hn : n ≤ mps.length) {L R : Env K} (h1 : (lb :: Ls)[n]? = some L)
    (h2 : (rb :: Rs)[mps.length - n]? = some R) :
    L.pair R = fullContr lb mps mpo mps rb := by
  obtain ⟨hne, l1, l2, l3, -⟩ := getLR_dims hlen hL hR
  have hne' : mpo ≠ [] := by rintro rfl; exact hne (List.length_eq_zero_iff.mp hlen.symm)
  have iL := (getL_isL hL).2 n L h1
  have iR := getR_isR' hlen hR hn h2
  rw [pair_eq_full iL iR (linked_take_drop l1 l1 hne iL.u iR.u) (linked_take_drop l2 l2 hne iL.w iR.w)
    (mlinked_take_drop l3 l3 hne' iL.m iR.m), List.take_append_drop, List.take_append_drop]

/-- **C30**, effective Hamiltonian: `contractionH(L,mps[n],mpo[n],R)` contracted with the conjugate
tensor of the site is the expectation value of the network of `left sites, n, right sites`. -/
theorem C30_contractionH {E F L R : Env K} {As Bs As' Bs' : List (Ten K)} {Ws Ws' : List (Mpo K)}
    (hL : IsL E As Ws Bs L) (hR : IsR F As' Ws' Bs' R) {A B T : Ten K} {W : Mpo K}
    (hBl : B.l = L.w) (hBr : B.r = R.w) (hBd : B.d = W.dout)
    (h : contractionH L A W R = .ok T) :
    ∑ i' ∈ range T.l, ∑ j' ∈ range T.r, ∑ s' ∈ range T.d, T.v i' j' s' * star (B.v i' j' s')
      = fullContr E (As ++ A :: As') (Ws ++ W :: Ws') (Bs ++ B :: Bs') F := by
  unfold contractionH at h
  split_ifs at h with hs
  obtain ⟨s1, s2, s3, s4, s5⟩ := hs
  simp only [Except.ok.injEq] at h
  -- the right block with the site added
  have hadd : addLayerL R A W B = .ok ⟨A.l, B.l, W.l, fun i i' b =>
      ∑ j ∈ range R.u, ∑ j' ∈ range R.w, ∑ b' ∈ range R.m, ∑ s ∈ range A.d, ∑ s' ∈ range B.d,
        R.v j j' b' * A.v i j s * W.v b b' s s' * star (B.v i' j' s')⟩ := by
    unfold addLayerL; rw [if_pos ⟨s4.symm, s5.symm, s3, hBr.symm, hBd.symm⟩]
  obtain ⟨e1, e2, e3, e4, e5, e6, e7, e8, e9⟩ := addLayerL_v hadd
  have hR1 : IsR F (A :: As') (W :: Ws') (B :: Bs') ⟨A.l, B.l, W.l, fun i i' b =>
      ∑ j ∈ range R.u, ∑ j' ∈ range R.w, ∑ b' ∈ range R.m, ∑ s ∈ range A.d, ∑ s' ∈ range B.d,
        R.v j j' b' * A.v i j s * W.v b b' s s' * star (B.v i' j' s')⟩ := by
    refine ⟨⟨rfl, s4 ▸ hR.u⟩, ⟨rfl, s5 ▸ hR.m⟩, ⟨rfl, hBr ▸ hR.w⟩, ⟨s3, hBd.symm, hR.fits⟩, ?_⟩
    intro i _ i' _ b _
    rw [contrR_cons]
    simp only
    rw [← s4, ← s5, ← hBr]
    refine sum_congr rfl fun q hq => sum_congr rfl fun q' hq' => sum_congr rfl fun c hc => ?_
    rw [hR.v q (by rw [← s4]; exact mem_range.mp hq) q' (by rw [← hBr]; exact mem_range.mp hq') c
      (by rw [← s5]; exact mem_range.mp hc)]
  rw [← pair_eq_full hL hR1 s1 hBl.symm s2]
  subst h
  unfold Env.pair
  simp only [mul_sum, sum_mul, hBd]
  have h3 : ∀ (a b c d e f g h : Finset ℕ) (G : ℕ → ℕ → ℕ → ℕ → ℕ → ℕ → ℕ → ℕ → K),
      (∑ i' ∈ a, ∑ j' ∈ b, ∑ s' ∈ c, ∑ i ∈ d, ∑ β ∈ e, ∑ s ∈ f, ∑ j ∈ g, ∑ b' ∈ h, G i i' β j j' b' s s')
        = ∑ i ∈ d, ∑ i' ∈ a, ∑ β ∈ e, ∑ j ∈ g, ∑ j' ∈ b, ∑ b' ∈ h, ∑ s ∈ f, ∑ s' ∈ c, G i i' β j j' b' s s' := by
    intro a b c d e f g h G
    simp only [← Finset.sum_product']
    refine Finset.sum_nbij'
      (fun x => (x.2.2.2.1, x.1, x.2.2.2.2.1, x.2.2.2.2.2.2.1, x.2.1, x.2.2.2.2.2.2.2, x.2.2.2.2.2.1, x.2.2.1))
      (fun y => (y.2.1, y.2.2.2.2.1, y.2.2.2.2.2.2.2, y.1, y.2.2.1, y.2.2.2.2.2.2.1, y.2.2.2.1, y.2.2.2.2.2.1))
      ?_ ?_ ?_ ?_ ?_
    · rintro ⟨x1, x2, x3, x4, x5, x6, x7, x8⟩ hx
      simp only [Finset.mem_product] at hx ⊢; tauto
    · rintro ⟨x1, x2, x3, x4, x5, x6, x7, x8⟩ hx
      simp only [Finset.mem_product] at hx ⊢; tauto
    · rintro ⟨x1, x2, x3, x4, x5, x6, x7, x8⟩ hx; rfl
    · rintro ⟨x1, x2, x3, x4, x5, x6, x7, x8⟩ hx; rfl
    · rintro ⟨x1, x2, x3, x4, x5, x6, x7, x8⟩ hx; rfl
  rw [h3 (range L.w) (range R.w) (range W.dout) (range L.u) (range L.m) (range A.d) (range R.u) (range R.m)
    (fun i i' β j j' b' s s' => L.v i i' β * A.v i j s * W.v β b' s s' * R.v j j' b' * star (B.v i' j' s'))]
  refine sum_congr rfl fun i hi => sum_congr rfl fun i' hi' => sum_congr rfl fun b hb => sum_congr rfl fun j _ =>
    sum_congr rfl fun j' _ => sum_congr rfl fun b' _ => sum_congr rfl fun s _ => sum_congr rfl fun s' _ => ?_
  ring

/-- **C30**, progress: `getL` succeeds on every non-empty chain whose shapes fit. -/
theorem C30_getL_succeeds {mps : List (Ten K)} {mpo : List (Mpo K)} {lb : Env K} {u w m : ℕ} (hne : mps ≠ [])
    (h1 : Linked lb.u mps u) (h2 : Linked lb.w mps w) (h3 : MLinked lb.m mpo m) (h4 : Fits mps mpo mps) :
    ∃ Ls, getL mps mpo lb = .ok Ls := by
  unfold getL
  rw [if_neg hne]
  clear hne
  have key : ∀ (As : List (Ten K)) (Ws : List (Mpo K)) (Bs : List (Ten K)) (E : Env K), Linked E.u As u →
      Linked E.w Bs w → MLinked E.m Ws m → Fits As Ws Bs → ∃ Ls, blocksR E As Ws Bs = .ok Ls := by
    intro As
    induction As with
    | nil => intro Ws Bs E _ _ _ _; exact ⟨[], rfl⟩
    | cons A As ih =>
      intro Ws Bs E g1 g2 g3 g4
      cases Ws with
      | nil => simp [Fits] at g4
      | cons W Ws =>
        cases Bs with
        | nil => simp [Fits] at g4
        | cons B Bs =>
          obtain ⟨f1, f2, f3⟩ := g4
          have hadd : ∃ E1, addLayerR E A W B = .ok E1 ∧ E1.u = A.r ∧ E1.w = B.r ∧ E1.m = W.r := by
            unfold addLayerR
            rw [if_pos ⟨g1.1.symm, g3.1.symm, f1, g2.1.symm, f2⟩]
            exact ⟨_, rfl, rfl, rfl, rfl⟩
          obtain ⟨E1, k1, k2, k3, k4⟩ := hadd
          obtain ⟨Ls, hLs⟩ := ih Ws Bs E1 (k2 ▸ g1.2) (k3 ▸ g2.2) (k4 ▸ g3.2) f3
          exact ⟨E1 :: Ls, by simp only [blocksR, k1, hLs]⟩
  exact key mps mpo mps lb h1 h2 h3 h4

/-- **C30**, progress on the right. -/
theorem C30_getR_succeeds {mps : List (Ten K)} {mpo : List (Mpo K)} {rb : Env K} {u w m : ℕ} (hne : mps ≠ [])
    (h1 : Linked u mps rb.u) (h2 : Linked w mps rb.w) (h3 : MLinked m mpo rb.m) (h4 : Fits mps mpo mps) :
    ∃ Rs, getR mps mpo rb = .ok Rs := by
  have hlen := (fits_length h4).1
  have key : ∀ (As : List (Ten K)) (Ws : List (Mpo K)) (Bs : List (Ten K)) (u w m : ℕ) (E : Env K),
      Linked u As E.u → Linked w Bs E.w → MLinked m Ws E.m → Fits As Ws Bs →
      ∃ Ls, blocksL E As.reverse Ws.reverse Bs.reverse = .ok Ls := by
    intro As
    induction As using List.reverseRecOn with
    | nil => intro Ws Bs u w m E _ _ _ _; exact ⟨[], by simp [blocksL]⟩
    | append_singleton As A ih =>
      intro Ws Bs u w m E g1 g2 g3 g4
      have hl := fits_length g4
      have hW : Ws ≠ [] := by rintro rfl; simp at hl
      have hB : Bs ≠ [] := by rintro rfl; rw [← hl.1] at hl; simp at hl
      obtain ⟨Ws, W, rfl⟩ : ∃ X x, Ws = X ++ [x] := ⟨_, _, (List.dropLast_append_getLast hW).symm⟩
      obtain ⟨Bs, B, rfl⟩ : ∃ X x, Bs = X ++ [x] := ⟨_, _, (List.dropLast_append_getLast hB).symm⟩
      simp only [List.length_append, List.length_cons, List.length_nil, Nat.add_right_cancel_iff] at hl
      have hf : ∀ (X Z : List (Ten K)) (Y : List (Mpo K)), X.length = Y.length → Y.length = Z.length →
          Fits (X ++ [A]) (Y ++ [W]) (Z ++ [B]) → Fits X Y Z ∧ A.d = W.din ∧ W.dout = B.d := by
        intro X
        induction X with
        | nil =>
          intro Z Y e1 e2 h
          have e3 : Y = [] := List.length_eq_zero_iff.mp e1.symm
          subst e3
          have e4 : Z = [] := List.length_eq_zero_iff.mp e2.symm
          subst e4
          exact ⟨trivial, h.1, h.2.1⟩
        | cons x X ihX =>
          intro Z Y e1 e2 h
          cases Y with
          | nil => simp at e1
          | cons y Y =>
            cases Z with
            | nil => simp at e2
            | cons z Z =>
              have := ihX Z Y (by simpa using e1) (by simpa using e2) h.2.2
              exact ⟨⟨h.1, h.2.1, this.1⟩, this.2⟩
      obtain ⟨f1, f2, f3⟩ := hf As Bs Ws hl.1 hl.2 g4
      rw [linked_append] at g1 g2
      rw [mlinked_append] at g3
      obtain ⟨x1, a1, a2, a3⟩ := g1
      obtain ⟨x2, b1, b2, b3⟩ := g2
      obtain ⟨x3, c1, c2, c3⟩ := g3
      simp only [Linked, MLinked] at a3 b3 c3
      have hadd : ∃ E1, addLayerL E A W B = .ok E1 ∧ E1.u = A.l ∧ E1.w = B.l ∧ E1.m = W.l := by
        unfold addLayerL
        rw [if_pos ⟨a3.symm, c3.symm, f2, b3.symm, f3⟩]
        exact ⟨_, rfl, rfl, rfl, rfl⟩
      obtain ⟨E1, k1, k2, k3, k4⟩ := hadd
      obtain ⟨Ls, hLs⟩ := ih Ws Bs u w m E1 (by rw [k2, a2]; exact a1) (by rw [k3, b2]; exact b1)
        (by rw [k4, c2]; exact c1) f1
      refine ⟨E1 :: Ls, ?_⟩
      simp only [List.reverse_append, List.reverse_cons, List.reverse_nil, List.nil_append, List.cons_append,
        blocksL, k1, hLs]
  unfold getR
  rw [if_neg hne]
  have hmne : mpo ≠ [] := by
    rintro rfl
    exact hne (List.length_eq_zero_iff.mp hlen)
  obtain ⟨as, w', rfl⟩ : ∃ X x, mpo = X ++ [x] := ⟨_, _, (List.dropLast_append_getLast hmne).symm⟩
  simp only [List.getLast?_append, List.getLast?_singleton, Option.some_or]
  rw [if_neg (by omega)]
  obtain ⟨Rs, hRs⟩ := key mps (as ++ [w']) mps u w m rb h1 h2 h3 h4
  refine ⟨Rs, ?_⟩
  rw [← hRs]
  have : mps.length - 1 = as.length := by rw [hlen]; simp
  rw [this]
  simp

omit [CommSemiring K] [StarRing K] in
theorem fits_get {As Bs : List (Ten K)} {Ws : List (Mpo K)} (h : Fits As Ws Bs) {n : ℕ} {A B : Ten K} {W : Mpo K}
    (hA : As[n]? = some A) (hW : Ws[n]? = some W) (hB : Bs[n]? = some B) : A.d = W.din ∧ W.dout = B.d := by
  induction n generalizing As Ws Bs with
  | zero =>
    cases As <;> cases Ws <;> cases Bs <;> simp_all [Fits]
  | succ n ih =>
    cases As <;> cases Ws <;> cases Bs <;> simp_all [Fits]
    exact ih h.2.2 hA hW hB

/-- **C30** with the lists that `getL` and `getR` return: at every site `n` the effective Hamiltonian
applies to the tensor of the site, and contracted with the conjugate tensor gives the full contraction:
the same number for every site. -/
theorem C30_site {mps : List (Ten K)} {mpo : List (Mpo K)} {lb rb : Env K} {Ls Rs : List (Env K)}
    (hlen : mpo.length = mps.length) (hL : getL mps mpo lb = .ok Ls) (hR : getR mps mpo rb = .ok Rs)
    {n : ℕ} (hn : n < mps.length) {L R : Env K} (h1 : (lb :: Ls)[n]? = some L)
    (h2 : (rb :: Rs)[mps.length - (n + 1)]? = some R) {A : Ten K} {W : Mpo K} (hA : mps[n]? = some A)
    (hW : mpo[n]? = some W) :
    ∃ T, contractionH L A W R = .ok T ∧ T.l = A.l ∧ T.r = A.r ∧ T.d = A.d ∧
      ∑ i ∈ range T.l, ∑ j ∈ range T.r, ∑ s ∈ range T.d, T.v i j s * star (A.v i j s)
        = fullContr lb mps mpo mps rb := by
  obtain ⟨hne, l1, l2, l3, l4⟩ := getLR_dims hlen hL hR
  have hne' : mpo ≠ [] := by rintro rfl; exact hne (List.length_eq_zero_iff.mp hlen.symm)
  have iL := (getL_isL hL).2 n L h1
  have iR := getR_isR' hlen hR (n := n + 1) (by omega) h2
  have e1 : mps = mps.take n ++ A :: mps.drop (n + 1) := by
    have hget : mps[n] = A := by rw [List.getElem?_eq_getElem hn] at hA; exact Option.some.inj hA
    rw [← hget, ← List.drop_eq_getElem_cons hn, List.take_append_drop]
  have hn' : n < mpo.length := by omega
  have e2 : mpo = mpo.take n ++ W :: mpo.drop (n + 1) := by
    have hget : mpo[n] = W := by rw [List.getElem?_eq_getElem hn'] at hW; exact Option.some.inj hW
    rw [← hget, ← List.drop_eq_getElem_cons hn', List.take_append_drop]
  have tk : mps.take (n + 1) = mps.take n ++ [A] := by
    rw [List.take_add_one, hA]; rfl
  have tkW : mpo.take (n + 1) = mpo.take n ++ [W] := by
    rw [List.take_add_one, hW]; rfl
  have dims : ∀ {l r a b : ℕ}, Linked l mps r → Linked l (mps.take n) a → Linked b (mps.drop (n + 1)) r →
      A.l = a ∧ A.r = b := by
    intro l r a b q1 q2 q3
    have h3 := q1
    rw [e1, linked_append] at h3
    obtain ⟨x, y1, y2, y3⟩ := h3
    have ha : a = x := by rw [← linked_rdim q2, linked_rdim y1]
    refine ⟨by rw [y2, ha], ?_⟩
    have : Linked l (mps.take (n + 1)) A.r := by
      rw [tk, linked_append]; exact ⟨x, y1, y2, rfl⟩
    exact linked_take_drop q1 q1 hne this q3
  have dimsW : ∀ {l r a b : ℕ}, MLinked l mpo r → MLinked l (mpo.take n) a → MLinked b (mpo.drop (n + 1)) r →
      W.l = a ∧ W.r = b := by
    intro l r a b q1 q2 q3
    have h3 := q1
    rw [e2, mlinked_append] at h3
    obtain ⟨x, y1, y2, y3⟩ := h3
    have ha : a = x := mlinked_right q2 y1
    refine ⟨by rw [y2, ha], ?_⟩
    have : MLinked l (mpo.take (n + 1)) W.r := by
      rw [tkW, mlinked_append]; exact ⟨x, y1, y2, rfl⟩
    exact mlinked_take_drop q1 q1 hne' this q3
  obtain ⟨f1, f2⟩ := fits_get l4 hA hW hA
  have d1 := dims l1 iL.u iR.u
  have d2 := dims l2 iL.w iR.w
  have d3 := dimsW l3 iL.m iR.m
  obtain ⟨T, hT, t1, t2, t3⟩ : ∃ T, contractionH L A W R = .ok T ∧ T.l = L.w ∧ T.r = R.w ∧ T.d = W.dout := by
    unfold contractionH
    rw [if_pos ⟨d1.1.symm, d3.1.symm, f1, d1.2, d3.2⟩]
    exact ⟨_, rfl, rfl, rfl, rfl⟩
  refine ⟨T, hT, by rw [t1, d2.1], by rw [t2, d2.2], by rw [t3, f2], ?_⟩
  rw [C30_contractionH iL iR d2.1 d2.2 f2.symm hT]
  rw [← e1, ← e2]

/-- a bond matrix as a site of local dimension 1. -/
def matT (M : Mat K) : Ten K := ⟨M.r, M.c, 1, fun i j _ => M.v i j⟩

/-- the MPO site that does nothing to a bond of dimension `m`. -/
def idW (m : ℕ) : Mpo K := ⟨m, m, 1, 1, fun b c _ _ => delta K b c⟩

/-- **C30**, bond Hamiltonian: `HAproductBondMatrix(L,R,M)` contracted with a conjugate bond matrix is the
contraction of the network with the bond matrices inserted at the cut. -/
theorem C30_bondH {E F L R : Env K} {As Bs As' Bs' : List (Ten K)} {Ws Ws' : List (Mpo K)}
    (hL : IsL E As Ws Bs L) (hR : IsR F As' Ws' Bs' R) {M M' T : Mat K}
    (hBl : M'.r = L.w) (hBr : M'.c = R.w) (h : bondH L R M = .ok T) :
    ∑ i' ∈ range T.r, ∑ j' ∈ range T.c, T.v i' j' * star (M'.v i' j')
      = fullContr E (As ++ matT M :: As') (Ws ++ idW L.m :: Ws') (Bs ++ matT M' :: Bs') F := by
  unfold bondH at h
  split_ifs at h with hs
  simp only [Except.ok.injEq] at h
  obtain ⟨s1, s2, s3⟩ := hs
  obtain ⟨T', hT', t1, t2, t3, t4⟩ : ∃ T', contractionH L (matT M) (idW L.m) R = .ok T' ∧ T'.l = L.w ∧
      T'.r = R.w ∧ T'.d = 1 ∧ ∀ i' j' s', T'.v i' j' s' = ∑ i ∈ range L.u, ∑ b ∈ range L.m, ∑ s ∈ range 1,
        ∑ j ∈ range R.u, ∑ b' ∈ range R.m, L.v i i' b * M.v i j * delta K b b' * R.v j j' b' := by
    unfold contractionH
    rw [if_pos ⟨s1, rfl, rfl, s2, s3⟩]
    exact ⟨_, rfl, rfl, rfl, rfl, fun _ _ _ => rfl⟩
  rw [← C30_contractionH hL hR (B := matT M') hBl hBr rfl hT']
  subst h
  simp only [t1, t2, t3, sum_range_one, matT]
  refine sum_congr rfl fun i' _ => sum_congr rfl fun j' _ => ?_
  rw [t4]
  congr 1
  refine sum_congr rfl fun i _ => sum_congr rfl fun b hb => ?_
  rw [sum_range_one]
  refine sum_congr rfl fun j _ => ?_
  rw [s3] at hb
  have : ∀ b' ∈ range R.m, L.v i i' b * M.v i j * delta K b b' * R.v j j' b'
      = delta K b b' * (L.v i i' b * M.v i j * R.v j j' b') := by intros; ring
  rw [sum_congr rfl this, sum_delta_left (mem_range.mp hb)]

/-- **C30**, `contractMPO` to the right: the given block contracted with the sites `site1..site2`. -/
theorem C30_contractMPO_right {mps1 mps2 : List (Ten K)} {mpo : List (Mpo K)} {E E' : Env K} {a b : ℕ}
    (h : contractMPO mps1 mps2 mpo E a b true = .ok E') :
    ∀ j < E'.u, ∀ j' < E'.w, ∀ c < E'.m, E'.v j j' c = contrL E ((mps1.drop a).take (b + 1 - a))
      ((mpo.drop a).take (b + 1 - a)) ((mps2.drop a).take (b + 1 - a)) j j' c :=
  (contractMPO_right h).v

/-- **C30**, `contractMPO` to the left. -/
theorem C30_contractMPO_left {mps1 mps2 : List (Ten K)} {mpo : List (Mpo K)} {E E' : Env K} {a b : ℕ}
    (h : contractMPO mps1 mps2 mpo E a b false = .ok E') :
    ∀ j < E'.u, ∀ j' < E'.w, ∀ c < E'.m, E'.v j j' c = contrR E ((mps1.drop a).take (b + 1 - a))
      ((mpo.drop a).take (b + 1 - a)) ((mps2.drop a).take (b + 1 - a)) j j' c :=
  (contractMPO_left h).v

/-- **C30**, `contractE` to the right: the block contracted with the sites `site1..site2` of two chains. -/
theorem C30_contractE_right {mps1 mps2 : List (Ten K)} {E E' : Env K} {a b : ℕ}
    (hd : ((mps1.drop a).take (b + 1 - a)).map Ten.d = ((mps2.drop a).take (b + 1 - a)).map Ten.d)
    (h : contractE mps1 mps2 E a b true = .ok E') :
    ∀ j < E'.u, ∀ j' < E'.w, ∀ c < E.m, E'.v j j' c =
      sumCfg (((mps1.drop a).take (b + 1 - a)).map Ten.d) fun s => ∑ i ∈ range E.u, ∑ i' ∈ range E.w,
        E.v i i' c * chain ((mps1.drop a).take (b + 1 - a)) s i j *
          star (chain ((mps2.drop a).take (b + 1 - a)) s i' j') := by
  unfold contractE at h
  rw [if_pos rfl] at h
  split_ifs at h
  obtain ⟨h1, h2⟩ := elayersR_isL _ _ _ _ (isL_nil E) h
  intro j hj j' hj' c hc
  rw [h2.v j hj j' hj' c (h1 ▸ hc)]
  exact contrL_id E _ _ hd j j' c hc

/-- **C30**, `contractE` to the left. -/
theorem C30_contractE_left {mps1 mps2 : List (Ten K)} {E E' : Env K} {a b : ℕ}
    (hd : ((mps1.drop a).take (b + 1 - a)).map Ten.d = ((mps2.drop a).take (b + 1 - a)).map Ten.d)
    (h : contractE mps1 mps2 E a b false = .ok E') :
    ∀ i < E'.u, ∀ i' < E'.w, ∀ c < E.m, E'.v i i' c =
      sumCfg (((mps1.drop a).take (b + 1 - a)).map Ten.d) fun s => ∑ j ∈ range E.u, ∑ j' ∈ range E.w,
        E.v j j' c * chain ((mps1.drop a).take (b + 1 - a)) s i j *
          star (chain ((mps2.drop a).take (b + 1 - a)) s i' j') := by
  unfold contractE at h
  rw [if_neg (c := (false = true)) (by simp)] at h
  split_ifs at h
  obtain ⟨h1, h2⟩ := elayersL_isR _ _ _ _ (isR_nil E) h
  intro j hj j' hj' c hc
  rw [h2.v j hj j' hj' c (h1 ▸ hc)]
  simp only [List.append_nil]
  exact contrR_id E _ _ hd j j' c hc

/-- **C30**, zero-site Hamiltonian with the site on the left of the bond. -/
theorem C30_zeroSite_right {E F L R : Env K} {As Bs As' Bs' : List (Ten K)} {Ws Ws' : List (Mpo K)}
    (hL : IsL E As Ws Bs L) (hR : IsR F As' Ws' Bs' R) {A : Ten K} {W : Mpo K} {M M' T : Mat K}
    (hBl : M'.r = A.r) (hBr : M'.c = R.w) (h : zeroSiteH L W A R true M = .ok T) :
    ∑ i' ∈ range T.r, ∑ j' ∈ range T.c, T.v i' j' * star (M'.v i' j')
      = fullContr E (As ++ [A] ++ matT M :: As') (Ws ++ [W] ++ idW W.r :: Ws') (Bs ++ [A] ++ matT M' :: Bs') F := by
  unfold zeroSiteH at h
  rw [if_pos rfl] at h
  split at h
  · cases h
  rename_i L1 h1
  have hL1 : IsL E (As ++ [A]) (Ws ++ [W]) (Bs ++ [A]) L1 := isL_snoc hL h1
  have e : L1.w = A.r ∧ L1.m = W.r := by
    unfold addLayerR at h1
    split_ifs at h1
    simp only [Except.ok.injEq] at h1
    rw [← h1]; exact ⟨rfl, rfl⟩
  rw [C30_bondH hL1 hR (by rw [e.1, hBl]) hBr h, e.2]

/-- **C30**, zero-site Hamiltonian with the site on the right of the bond. -/
theorem C30_zeroSite_left {E F L R : Env K} {As Bs As' Bs' : List (Ten K)} {Ws Ws' : List (Mpo K)}
    (hL : IsL E As Ws Bs L) (hR : IsR F As' Ws' Bs' R) {A : Ten K} {W : Mpo K} {M M' T : Mat K}
    (hBl : M'.r = L.w) (hBr : M'.c = A.l) (h : zeroSiteH L W A R false M = .ok T) :
    ∑ i' ∈ range T.r, ∑ j' ∈ range T.c, T.v i' j' * star (M'.v i' j')
      = fullContr E (As ++ matT M :: A :: As') (Ws ++ idW L.m :: W :: Ws') (Bs ++ matT M' :: A :: Bs') F := by
  unfold zeroSiteH at h
  rw [if_neg (by simp)] at h
  split at h
  · cases h
  rename_i R1 h1
  obtain ⟨e1, e2, e3, e4, e5, e6, e7, e8, e9⟩ := addLayerL_v h1
  have hR1 : IsR F (A :: As') (W :: Ws') (A :: Bs') R1 := isR_cons hR h1
  exact C30_bondH hL hR1 hBl (by rw [e2, hBr]) h


/-- With the open boundaries `ones((1,1,1))` the full contraction is `Σ_{s,s'} ψ(s) H(s,s') conj ψ(s')`. -/
theorem C30_open (mps : List (Ten K)) (mpo : List (Mpo K)) :
    fullContr oneEnv mps mpo mps oneEnv =
      sumCfg (mps.map Ten.d) fun s => sumCfg (mps.map Ten.d) fun s' =>
        chain mps s 0 0 * mchain mpo s s' 0 0 * star (chain mps s' 0 0) := by
  simp [fullContr, oneEnv]

end

/-- the MPO `Z⊗1⊗1 + 1⊗Z⊗1 + 1⊗1⊗Z` (bond dimension 2) on three spins 1/2. -/
def zMpo : List (Mpo ℂ) :=
  [⟨1, 2, 2, 2, fun _ c s t => if s = t then (if c = 0 then (1 - 2 * (s : ℂ)) else 1) else 0⟩,
   ⟨2, 2, 2, 2, fun b c s t => if s = t then
      (if b = c then 1 else if b = 1 ∧ c = 0 then (1 - 2 * (s : ℂ)) else 0) else 0⟩,
   ⟨2, 1, 2, 2, fun b _ s t => if s = t then (if b = 0 then 1 else (1 - 2 * (s : ℂ))) else 0⟩]

/-- The hypotheses of `C30_site` and `C30_cut` hold for the GHZ chain and this MPO. -/
example : ∃ Ls Rs, getL ghzT zMpo oneEnv = .ok Ls ∧ getR ghzT zMpo oneEnv = .ok Rs ∧ Ls.length = 3 := by
  have hl : Linked 1 ghzT 1 := by simp [ghzT, Linked]
  have hm : MLinked 1 zMpo 1 := by simp [zMpo, MLinked]
  have hf : Fits ghzT zMpo ghzT := by simp [ghzT, zMpo, Fits]
  obtain ⟨Ls, h1⟩ := C30_getL_succeeds (lb := oneEnv) (mps := ghzT) (mpo := zMpo) (by simp [ghzT]) hl hl hm hf
  obtain ⟨Rs, h2⟩ := C30_getR_succeeds (rb := oneEnv) (mps := ghzT) (mpo := zMpo) (by simp [ghzT]) hl hl hm hf
  exact ⟨Ls, Rs, h1, h2, (C30_getL h1).1⟩

end PyTeN
