import Verif.Engine.TwoSite
import Verif.Engine.Energy

/-! # Fusing two neighbouring sites

The operator, the amplitudes and the norm of a chain in which two neighbouring sites are treated as one. -/

namespace PyTeN
open Finset

noncomputable section

/-- Spec: split the `n`-th digit `x` of a configuration into `x/d, x%d`. -/
def unmerge (d : ℕ) : ℕ → List ℕ → List ℕ
  | _, [] => []
  | 0, x :: s => x / d :: x % d :: s
  | n + 1, x :: s => x :: unmerge d n s

theorem unmerge_append {d : ℕ} : ∀ {n : ℕ} (sA : List ℕ) (x : ℕ) (sB : List ℕ), sA.length = n →
    unmerge d n (sA ++ x :: sB) = sA ++ x / d :: x % d :: sB
  | 0, [], _, _, _ => rfl
  | n + 1, a :: sA, x, sB, h => by
    simp only [List.cons_append, unmerge]
    rw [unmerge_append sA x sB (by simpa using h)]

/-- Sums over fused and separate configurations. -/
theorem sumCfg_unmerge {K : Type*} [CommSemiring K] (d d' : ℕ) (dB : List ℕ) : ∀ (dA : List ℕ) (F : List ℕ → K),
    sumCfg (dA ++ d * d' :: dB) (fun s => F (unmerge d' dA.length s)) = sumCfg (dA ++ d :: d' :: dB) F
  | [], F => by
    simp only [List.nil_append, sumCfg, List.length_nil, unmerge]
    rw [sum_range_mul]
    refine sum_congr rfl fun x _ => sum_congr rfl fun y hy => ?_
    rw [idx_div (mem_range.mp hy), idx_mod (mem_range.mp hy)]
  | a :: dA, F => by
    simp only [List.cons_append, sumCfg, List.length_cons, unmerge]
    exact sum_congr rfl fun x _ => sumCfg_unmerge d d' dB dA fun s => F (x :: s)

theorem conf_unmerge {d d' : ℕ} {dB : List ℕ} : ∀ {dA s : List ℕ}, Conf (dA ++ d * d' :: dB) s →
    Conf (dA ++ d :: d' :: dB) (unmerge d' dA.length s)
  | [], _, .cons (b := x) h1 h2 => by
    have hd : 0 < d' := by
      rcases Nat.eq_zero_or_pos d' with h | h
      · subst h; simp at h1
      · exact h
    exact .cons (Nat.div_lt_of_lt_mul (by rwa [mul_comm])) (.cons (Nat.mod_lt _ hd) h2)
  | _ :: _, _, .cons h1 h2 => .cons h1 (conf_unmerge h2)

theorem chain_unmerge {t w T : Ten ℂ} (hT : mergeT t w = .ok T) (B : List (Ten ℂ)) : ∀ (A : List (Ten ℂ)) (s : List ℕ),
    s.length = A.length + 1 + B.length → ∀ i j,
    chain (A ++ T :: B) s i j = chain (A ++ t :: w :: B) (unmerge w.d A.length s) i j
  | _, [], h, _, _ => by simp at h; omega
  | [], x :: s, _, i, j => by
    unfold mergeT at hT
    split_ifs at hT with h1
    simp only [Except.ok.injEq] at hT
    subst hT
    simp only [List.nil_append, List.length_nil, unmerge, chain]
    simp only [mul_sum, sum_mul]
    rw [sum_comm]
    exact sum_congr rfl fun k _ => sum_congr rfl fun q _ => mul_assoc _ _ _
  | a :: A, x :: s, h, i, j => by
    simp only [List.cons_append, List.length_cons, unmerge, chain]
    refine sum_congr rfl fun k _ => ?_
    rw [chain_unmerge hT B A s (by simp at h; omega)]

theorem mchain_unmerge {W w W2 : Mpo ℂ} (hW : mergeW W w = .ok W2) (B : List (Mpo ℂ)) : ∀ (A : List (Mpo ℂ)) (s s' : List ℕ),
    s.length = A.length + 1 + B.length → s'.length = A.length + 1 + B.length → ∀ b b',
    mchain (A ++ W2 :: B) s s' b b' = mchain (A ++ W :: w :: B) (unmerge w.din A.length s) (unmerge w.dout A.length s') b b'
  | _, [], _, h, _, _, _ => by simp at h; omega
  | _, _, [], _, h, _, _ => by simp at h; omega
  | [], x :: s, x' :: s', _, _, i, j => by
    unfold mergeW at hW
    split_ifs at hW with h1
    simp only [Except.ok.injEq] at hW
    subst hW
    simp only [List.nil_append, List.length_nil, unmerge, mchain]
    simp only [mul_sum, sum_mul]
    rw [sum_comm]
    exact sum_congr rfl fun k _ => sum_congr rfl fun q _ => mul_assoc _ _ _
  | a :: A, x :: s, x' :: s', h, h', i, j => by
    simp only [List.cons_append, List.length_cons, unmerge, mchain]
    refine sum_congr rfl fun k _ => ?_
    rw [mchain_unmerge hW B A s s' (by simp at h; omega) (by simp at h'; omega)]

/-- Spec: amplitudes seen as those of the fused chain. -/
def Amp.fuse (d n : ℕ) (f : Amp) : Amp := fun s i j => f (unmerge d n s) i j

section
variable {lb rb : Env ℂ} {WA WB : List (Mpo ℂ)} {W w W2 : Mpo ℂ} {dA dB : List ℕ} {d d' : ℕ}

theorem helem_fuse (hW : mergeW W w = .ok W2) (hA : WA.length = dA.length) (hB : WB.length = dB.length) (h1 : w.din = d')
    (h2 : w.dout = d') {s s' : List ℕ} (hs : Conf (dA ++ d * d' :: dB) s) (hs' : Conf (dA ++ d * d' :: dB) s') (i i' j j' : ℕ) :
    helem lb (WA ++ W2 :: WB) rb s s' i i' j j'
      = helem lb (WA ++ W :: w :: WB) rb (unmerge d' dA.length s) (unmerge d' dA.length s') i i' j j' := by
  have l1 : s.length = WA.length + 1 + WB.length := by rw [hs.length]; simp; omega
  have l2 : s'.length = WA.length + 1 + WB.length := by rw [hs'.length]; simp; omega
  unfold helem
  refine sum_congr rfl fun b _ => sum_congr rfl fun b' _ => ?_
  rw [mchain_unmerge hW WB WA s s' l1 l2, h1, h2, hA]

theorem hform_fuse (hW : mergeW W w = .ok W2) (hA : WA.length = dA.length) (hB : WB.length = dB.length) (h1 : w.din = d')
    (h2 : w.dout = d') (f g : Amp) :
    hform lb (WA ++ W2 :: WB) rb (dA ++ d * d' :: dB) (f.fuse d' dA.length) (g.fuse d' dA.length)
      = hform lb (WA ++ W :: w :: WB) rb (dA ++ d :: d' :: dB) f g := by
  unfold hform
  rw [← sumCfg_unmerge]
  refine sumCfg_congr fun s hs => ?_
  rw [← sumCfg_unmerge]
  refine sumCfg_congr fun s' hs' => ?_
  refine sum_congr rfl fun i _ => sum_congr rfl fun i' _ => sum_congr rfl fun j _ => sum_congr rfl fun j' _ => ?_
  rw [helem_fuse hW hA hB h1 h2 hs hs']
  rfl

theorem nsq_fuse {l r : ℕ} (f : Amp) :
    nsq (dA ++ d * d' :: dB) l r (f.fuse d' dA.length) = nsq (dA ++ d :: d' :: dB) l r f := by
  unfold nsq
  rw [← sumCfg_unmerge]
  rfl

theorem herm_fuse (hW : mergeW W w = .ok W2) (hA : WA.length = dA.length) (hB : WB.length = dB.length) (h1 : w.din = d')
    (h2 : w.dout = d') (hH : HermH lb (WA ++ W :: w :: WB) rb (dA ++ d :: d' :: dB)) :
    HermH lb (WA ++ W2 :: WB) rb (dA ++ d * d' :: dB) := by
  refine ⟨hH.lw, hH.rw, fun s s' hs hs' i hi i' hi' j hj j' hj' => ?_⟩
  rw [helem_fuse hW hA hB h1 h2 hs hs', helem_fuse hW hA hB h1 h2 hs' hs]
  exact hH.herm _ _ (conf_unmerge hs) (conf_unmerge hs') i hi i' hi' j hj j' hj'

end

end

end PyTeN
