import Verif.Env.Transfer
import Mathlib.Data.List.Rotate
import Mathlib.Tactic.LinearCombination
import Mathlib.Tactic.NormNum

/-! # C47, C55, C56: `patchmpo`, pseudo transfer operators, unit-cell transfer operators -/

namespace PyTeN
open Finset Transfer

set_option linter.unusedSectionVars false

/-! ## C47 -/

section patch
variable {α : Type*}

theorem collect_nat (mpo : List α) (k n : ℕ) (temp : List α) (h : n + k ≤ mpo.length) :
    collect mpo k n temp = .ok (temp ++ (mpo.drop n).take k) := by
  induction k generalizing n temp with
  | zero => simp [collect]
  | succ k ih =>
    have hn : n < mpo.length := by omega
    have hg : pyGet mpo (n : ℤ) = .ok mpo[n] := by simp [pyGet, hn]
    simp only [collect, hg]
    have := ih (n + 1) (temp ++ [mpo[n]]) (by omega)
    push_cast at this
    rw [this, List.drop_eq_getElem_cons hn, List.take_succ_cons]
    simp

theorem writeBack_ok (temp mpo done rest : List α) (k : ℕ) (hm : mpo = done ++ rest) (hk : rest.length = k)
    (hd : done = temp.take done.length) (hl : done.length + k ≤ temp.length) :
    writeBack temp k done.length mpo = .ok (temp.take (done.length + k)) := by
  induction k generalizing mpo done rest with
  | zero =>
    obtain rfl : rest = [] := by simpa using hk
    simp only [writeBack, hm, List.append_nil, Nat.add_zero]
    rw [← hd]
  | succ k ih =>
    match rest with
    | [] => simp at hk
    | a :: rest =>
      have hlt : done.length < temp.length := by omega
      have hg : writeBack.getT? temp done.length = .ok temp[done.length] := by simp [writeBack.getT?, hlt]
      simp only [writeBack, hg]
      have h1 : (done ++ [temp[done.length]]).length = done.length + 1 := by simp
      have := ih (mpo.set done.length temp[done.length]) (done ++ [temp[done.length]]) rest
        (by rw [hm]; simp) (by simpa using hk) (by
          rw [h1, List.take_succ_eq_append_getElem hlt, ← hd]) (by rw [h1]; omega)
      rw [h1] at this
      rw [this]
      congr 2; omega

/-- **C47.**  For `0<=index<=N` the list is rotated to the left by `index`. -/
theorem C47_rotates (mpo : List α) (i : ℕ) (h : i ≤ mpo.length) : patchmpo mpo i = .ok (mpo.rotate i) := by
  unfold patchmpo
  have h1 : ((mpo.length : ℤ) - i).toNat = mpo.length - i := by omega
  have h2 := collect_nat mpo (mpo.length - i) i [] (by omega)
  have h3 := collect_nat mpo i 0 ([] ++ (mpo.drop i).take (mpo.length - i)) (by omega)
  rw [h1, h2]
  simp only [Int.toNat_natCast]
  have h4 : ((0 : ℕ) : ℤ) = 0 := rfl
  rw [← h4, h3]
  simp only
  have hl : ([] ++ (mpo.drop i).take (mpo.length - i) ++ (mpo.drop 0).take i) = mpo.rotate i := by
    rw [List.rotate_eq_drop_append_take h]
    simp
  rw [hl]
  have := writeBack_ok (mpo.rotate i) mpo [] mpo mpo.length rfl rfl (by simp) (by simp)
  rw [List.length_nil, Nat.zero_add, List.take_of_length_le (by simp)] at this
  exact this

/-- The entries: site `k` of the new list is site `(k+index) mod N` of the old one. -/
theorem C47_entries (mpo : List α) (i k : ℕ) (h : i ≤ mpo.length) (hk : k < mpo.length) :
    ∃ l, patchmpo mpo i = .ok l ∧ l.length = mpo.length ∧ l[k]? = mpo[(k + i) % mpo.length]? :=
  ⟨_, C47_rotates mpo i h, by simp, List.getElem?_rotate hk⟩

/-- **C47 (inverse).**  A rotation by `index` followed by one by `N-index` is the identity. -/
theorem C47_inverse (mpo : List α) (i : ℕ) (h : i ≤ mpo.length) {l : List α} (hl : patchmpo mpo i = .ok l) :
    patchmpo l ((mpo.length - i : ℕ) : ℤ) = .ok mpo := by
  rw [C47_rotates mpo i h] at hl
  simp only [Except.ok.injEq] at hl
  subst hl
  rw [C47_rotates _ _ (by simp), List.rotate_rotate]
  rw [show i + (mpo.length - i) = mpo.length by omega, List.rotate_length]

/-- `n` calls in a row. -/
def patchTimes (i : ℤ) : ℕ → List α → Res (List α)
  | 0, l => .ok l
  | n + 1, l =>
    match patchmpo l i with
    | .error e => .error e
    | .ok l' => patchTimes i n l'

/-- **C47 (order).**  `N/gcd(N,index)` calls return the original list. -/
theorem C47_order (mpo : List α) (i : ℕ) (h : i ≤ mpo.length) :
    patchTimes (i : ℤ) (mpo.length / Nat.gcd mpo.length i) mpo = .ok mpo := by
  have key : ∀ (n : ℕ) (l : List α), i ≤ l.length → patchTimes (i : ℤ) n l = .ok (l.rotate (i * n)) := by
    intro n
    induction n with
    | zero => intro l _; simp [patchTimes]
    | succ n ih =>
      intro l hl
      simp only [patchTimes, C47_rotates l i hl]
      rw [ih _ (by simpa using hl), List.rotate_rotate]
      congr 2; ring
  rw [key _ _ h]
  have hd : mpo.length ∣ i * (mpo.length / Nat.gcd mpo.length i) := by
    obtain ⟨c, hc⟩ := Nat.gcd_dvd_right mpo.length i
    obtain ⟨d, hd⟩ := Nat.gcd_dvd_left mpo.length i
    refine ⟨c, ?_⟩
    by_cases hg : Nat.gcd mpo.length i = 0
    · have h0 : mpo.length = 0 := Nat.eq_zero_of_gcd_eq_zero_left hg
      have : i = 0 := by omega
      simp [h0, this]
    · have h5 : mpo.length / Nat.gcd mpo.length i = d := by
        exact Nat.div_eq_of_eq_mul_right (Nat.pos_of_ne_zero hg) hd
      rw [h5]
      calc i * d = Nat.gcd mpo.length i * c * d := by rw [← hc]
        _ = Nat.gcd mpo.length i * d * c := by ring
        _ = mpo.length * c := by rw [← hd]
  obtain ⟨c, hc⟩ := hd
  rw [hc, ← List.rotate_mod]
  simp

/-- **C47 (rejection).**  An index above `N` raises IndexError. -/
theorem C47_rejects (mpo : List α) (i : ℕ) (h : mpo.length < i) : patchmpo mpo i = .error .index := by
  unfold patchmpo
  rw [show ((mpo.length : ℤ) - i).toNat = 0 by omega]
  simp only [collect, Int.toNat_natCast]
  have key : ∀ (k n : ℕ) (temp : List α), mpo.length < n + k → n ≤ mpo.length → collect mpo k n temp = .error .index := by
    intro k
    induction k with
    | zero => intro n temp h1 h2; omega
    | succ k ih =>
      intro n temp h1 h2
      by_cases hn : n < mpo.length
      · have hg : pyGet mpo (n : ℤ) = .ok mpo[n] := by simp [pyGet, hn]
        simp only [collect, hg]
        have := ih (n + 1) (temp ++ [mpo[n]]) (by omega) (by omega)
        push_cast at this
        exact this
      · have hg : pyGet mpo (n : ℤ) = .error .index := by simp [pyGet, hn]
        simp only [collect, hg]
  have := key i 0 [] (by omega) (by omega)
  simp only [Nat.cast_zero] at this
  rw [this]

example : patchmpo [10, 11, 12, 13, 14] 2 = .ok [12, 13, 14, 10, 11] := C47_rotates _ 2 (by simp)

end patch

/-! ## C56 -/

section transfer
variable {K : Type*} [CommRing K] [StarRing K]

/-- Spec: the double-layer kernel of a unit cell, a sum over all configurations. -/
def kern (ts : List (Ten K)) (i i' j j' : ℕ) : K := sumCfg (ts.map (·.d)) fun s => chain ts s i j * star (chain ts s i' j')

/-- Spec: the vector is the matrix `f` of shape `(n,n)` in row-major order. -/
def IsMat (x : Vec K) (n : ℕ) (f : ℕ → ℕ → K) : Prop := x.n = n * n ∧ ∀ i < n, ∀ j < n, x.v (i * n + j) = f i j

theorem sum_quad (a b : ℕ) (F : ℕ → ℕ → ℕ → ℕ → K) :
    ∑ k ∈ range a, ∑ k' ∈ range a, ∑ i ∈ range b, ∑ i' ∈ range b, F k k' i i' =
      ∑ i ∈ range b, ∑ i' ∈ range b, ∑ k ∈ range a, ∑ k' ∈ range a, F k k' i i' := by
  calc _ = ∑ k ∈ range a, ∑ i ∈ range b, ∑ k' ∈ range a, ∑ i' ∈ range b, F k k' i i' :=
        sum_congr rfl fun k _ => sum_comm
    _ = ∑ i ∈ range b, ∑ k ∈ range a, ∑ k' ∈ range a, ∑ i' ∈ range b, F k k' i i' := sum_comm
    _ = ∑ i ∈ range b, ∑ k ∈ range a, ∑ i' ∈ range b, ∑ k' ∈ range a, F k k' i i' :=
        sum_congr rfl fun i _ => sum_congr rfl fun k _ => sum_comm
    _ = _ := sum_congr rfl fun i _ => sum_comm

theorem sum_assoc4 (a b : ℕ) (f g : ℕ → ℕ → K) (T : ℕ → ℕ → ℕ → ℕ → K) :
    ∑ k ∈ range a, ∑ k' ∈ range a, (∑ i ∈ range b, ∑ i' ∈ range b, f i i' * T i i' k k') * g k k' =
      ∑ i ∈ range b, ∑ i' ∈ range b, f i i' * ∑ k ∈ range a, ∑ k' ∈ range a, T i i' k k' * g k k' := by
  simp only [sum_mul, mul_sum]
  rw [sum_quad]
  simp only [mul_assoc]

theorem kern_cons (t : Ten K) (ts : List (Ten K)) (i i' j j' : ℕ) :
    kern (t :: ts) i i' j j' = ∑ k ∈ range t.r, ∑ k' ∈ range t.r, (∑ s ∈ range t.d, t.v i k s * star (t.v i' k' s)) * kern ts k k' j j' := by
  have h : ∀ s ss, chain (t :: ts) (s :: ss) i j * star (chain (t :: ts) (s :: ss) i' j') =
      ∑ k ∈ range t.r, ∑ k' ∈ range t.r, (t.v i k s * star (t.v i' k' s)) * (chain ts ss k j * star (chain ts ss k' j')) := by
    intro s ss
    simp only [chain, star_sum, star_mul']
    rw [sum_mul_sum]
    exact sum_congr rfl fun k _ => sum_congr rfl fun k' _ => by ring
  simp only [kern, List.map_cons, sumCfg, h, sumCfg_sum, sumCfg_mul]
  rw [sum_comm]
  refine sum_congr rfl fun k _ => ?_
  rw [sum_comm]
  exact sum_congr rfl fun k' _ => by rw [sum_mul]

theorem flat_isMat {r n : ℕ} {f : ℕ → ℕ → K} (h : r * r = n) : ∃ y, flat ⟨r, r, f⟩ n = .ok y ∧ IsMat y r f := by
  refine ⟨⟨n, fun k => f (k / r) (k % r)⟩, by simp [flat, h], h.symm, fun i _ j hj => ?_⟩
  simp only [idx_div hj, idx_mod hj]

/-- One site to the right. -/
theorem transfer_right (A : Ten K) {x : Vec K} {f : ℕ → ℕ → K} (hx : IsMat x A.l f) :
    ∃ y, transferOperator .right (.arr A) x = .ok y ∧
      IsMat y A.r fun j j' => ∑ i ∈ range A.l, ∑ i' ∈ range A.l, f i i' * ∑ s ∈ range A.d, A.v i j s * star (A.v i' j' s) := by
  obtain ⟨y, h1, h2⟩ := flat_isMat (f := fun j j' => ∑ i ∈ range A.l, ∑ i' ∈ range A.l, ∑ s ∈ range A.d,
    x.v (i * A.l + i') * A.v i j s * star (A.v i' j' s)) (r := A.r) rfl
  refine ⟨y, ?_, h2.1, fun j hj j' hj' => ?_⟩
  · simp only [transferOperator, mixedArr, reshape2, hx.1, if_true]; exact h1
  · rw [h2.2 j hj j' hj']
    refine sum_congr rfl fun i hi => sum_congr rfl fun i' hi' => ?_
    rw [mul_sum, hx.2 i (mem_range.1 hi) i' (mem_range.1 hi')]
    exact sum_congr rfl fun s _ => by ring

/-- One site to the left. -/
theorem transfer_left (A : Ten K) {x : Vec K} {f : ℕ → ℕ → K} (hx : IsMat x A.r f) :
    ∃ y, transferOperator .left (.arr A) x = .ok y ∧
      IsMat y A.l fun i i' => ∑ j ∈ range A.r, ∑ j' ∈ range A.r, (∑ s ∈ range A.d, A.v i j s * star (A.v i' j' s)) * f j j' := by
  obtain ⟨y, h1, h2⟩ := flat_isMat (f := fun i i' => ∑ j ∈ range A.r, ∑ j' ∈ range A.r, ∑ s ∈ range A.d,
    x.v (j * A.r + j') * A.v i j s * star (A.v i' j' s)) (r := A.l) rfl
  refine ⟨y, ?_, h2.1, fun j hj j' hj' => ?_⟩
  · simp only [transferOperator, mixedArr, reshape2, hx.1, if_true]; exact h1
  · rw [h2.2 j hj j' hj']
    refine sum_congr rfl fun i hi => sum_congr rfl fun i' hi' => ?_
    rw [sum_mul, hx.2 i (mem_range.1 hi) i' (mem_range.1 hi')]
    exact sum_congr rfl fun s _ => by ring

theorem isMat_congr {x : Vec K} {n : ℕ} {f g : ℕ → ℕ → K} (h : IsMat x n f) (hfg : ∀ i < n, ∀ j < n, f i j = g i j) : IsMat x n g :=
  ⟨h.1, fun i hi j hj => by rw [h.2 i hi j hj, hfg i hi j hj]⟩

theorem kern_nil (i i' j j' : ℕ) : kern ([] : List (Ten K)) i i' j j' = delta K i j * delta K i' j' := by
  simp only [kern, List.map_nil, sumCfg, chain]
  congr 1
  unfold delta; split <;> simp

theorem unitLoop_right (ts : List (Ten K)) {l r : ℕ} (hl : Linked l ts r) {x : Vec K} {f : ℕ → ℕ → K} (hx : IsMat x l f) :
    ∃ y, unitLoop .right ts x = .ok y ∧ IsMat y r fun j j' => ∑ i ∈ range l, ∑ i' ∈ range l, f i i' * kern ts i i' j j' := by
  induction ts generalizing l x f with
  | nil =>
    simp only [Linked] at hl
    subst hl
    refine ⟨x, rfl, isMat_congr hx fun j hj j' hj' => ?_⟩
    have hin : ∀ i, ∑ i' ∈ range l, f i i' * kern ([] : List (Ten K)) i i' j j' = f i j' * delta K i j := by
      intro i
      rw [← sum_delta_right hj' (fun k => f i k * delta K i j)]
      exact sum_congr rfl fun i' _ => by rw [kern_nil]; ring
    simp only [hin]
    rw [sum_delta_right hj (fun k => f k j')]
  | cons t ts ih =>
    obtain ⟨h1, h2⟩ := hl
    subst h1
    obtain ⟨y, a1, a2⟩ := transfer_right t hx
    obtain ⟨z, b1, b2⟩ := ih h2 a2
    refine ⟨z, by simp only [unitLoop, a1]; exact b1, isMat_congr b2 fun j _ j' _ => ?_⟩
    simp only [kern_cons]
    rw [sum_assoc4]

theorem unitLoop_append (dir : Dir) (a b : List (Ten K)) (x : Vec K) :
    unitLoop dir (a ++ b) x = match unitLoop dir a x with | .error e => .error e | .ok y => unitLoop dir b y := by
  induction a generalizing x with
  | nil => rfl
  | cons t a ih =>
    simp only [List.cons_append, unitLoop]
    match transferOperator dir (.arr t) x with
    | .error e => rfl
    | .ok y => exact ih y

theorem unitLoop_left (ts : List (Ten K)) {l r : ℕ} (hl : Linked l ts r) {x : Vec K} {f : ℕ → ℕ → K} (hx : IsMat x r f) :
    ∃ y, unitLoop .left ts.reverse x = .ok y ∧ IsMat y l fun i i' => ∑ j ∈ range r, ∑ j' ∈ range r, kern ts i i' j j' * f j j' := by
  induction ts generalizing l with
  | nil =>
    simp only [Linked] at hl
    subst hl
    refine ⟨x, rfl, isMat_congr hx fun i hi i' hi' => ?_⟩
    have hin : ∀ j, ∑ j' ∈ range l, kern ([] : List (Ten K)) i i' j j' * f j j' = delta K i j * f j i' := by
      intro j
      rw [← sum_delta_left hi' (fun k => delta K i j * f j k)]
      exact sum_congr rfl fun j' _ => by rw [kern_nil]; ring
    simp only [hin]
    rw [sum_delta_left hi (fun k => f k i')]
  | cons t ts ih =>
    obtain ⟨h1, h2⟩ := hl
    subst h1
    obtain ⟨y, a1, a2⟩ := ih h2
    obtain ⟨z, b1, b2⟩ := transfer_left t a2
    refine ⟨z, ?_, isMat_congr b2 fun i _ i' _ => ?_⟩
    · rw [List.reverse_cons, unitLoop_append, a1]
      simp only [unitLoop, b1]
    · simp only [kern_cons]
      rw [sum_assoc4]

/-- **C56 (to the right).**  The operator of a unit cell with matching bonds contracts the vector with the double-layer kernel. -/
theorem C56_right (ts : List (Ten K)) (hne : ts ≠ []) {l r : ℕ} (hl : Linked l ts r) {x : Vec K} {f : ℕ → ℕ → K} (hx : IsMat x l f) :
    ∃ y, unitcellTransferOperator .right ts x = .ok y ∧
      IsMat y r fun j j' => ∑ i ∈ range l, ∑ i' ∈ range l, f i i' * kern ts i i' j j' := by
  unfold unitcellTransferOperator; rw [if_neg hne]; exact unitLoop_right ts hl hx

/-- **C56 (to the left).** -/
theorem C56_left (ts : List (Ten K)) (hne : ts ≠ []) {l r : ℕ} (hl : Linked l ts r) {x : Vec K} {f : ℕ → ℕ → K} (hx : IsMat x r f) :
    ∃ y, unitcellTransferOperator .left ts x = .ok y ∧
      IsMat y l fun i i' => ∑ j ∈ range r, ∑ j' ∈ range r, kern ts i i' j j' * f j j' := by
  unfold unitcellTransferOperator; rw [if_neg hne]; exact unitLoop_left ts hl hx

/-- **C56 (composition).**  The operator of a cell made of two parts acts with the left part first (to the right), or with the
right part first (to the left). -/
theorem C56_compose (a b : List (Ten K)) (ha : a ≠ []) (hb : b ≠ []) (x : Vec K) :
    unitcellTransferOperator .right (a ++ b) x =
      (match unitcellTransferOperator .right a x with | .error e => .error e | .ok y => unitcellTransferOperator .right b y) ∧
    unitcellTransferOperator .left (a ++ b) x =
      (match unitcellTransferOperator .left b x with | .error e => .error e | .ok y => unitcellTransferOperator .left a y) := by
  have hab : a ++ b ≠ [] := by simp [ha]
  simp only [unitcellTransferOperator, if_neg ha, if_neg hb, if_neg hab, List.reverse_append]
  exact ⟨unitLoop_append .right a b x, unitLoop_append .left b.reverse a.reverse x⟩

/-- **C56 (adjoint).**  Pairing the image of `x` to the right with `y` equals pairing `x` with the image of `y` to the left. -/
theorem C56_adjoint (ts : List (Ten K)) (hne : ts ≠ []) {l r : ℕ} (hl : Linked l ts r) {x y : Vec K} {f g : ℕ → ℕ → K}
    (hx : IsMat x l f) (hy : IsMat y r g) :
    ∃ x' y' f' g', unitcellTransferOperator .right ts x = .ok x' ∧ unitcellTransferOperator .left ts y = .ok y' ∧
      IsMat x' r f' ∧ IsMat y' l g' ∧
      ∑ j ∈ range r, ∑ j' ∈ range r, f' j j' * g j j' = ∑ i ∈ range l, ∑ i' ∈ range l, f i i' * g' i i' := by
  obtain ⟨x', a1, a2⟩ := C56_right ts hne hl hx
  obtain ⟨y', b1, b2⟩ := C56_left ts hne hl hy
  exact ⟨x', y', _, _, a1, b1, a2, b2, sum_assoc4 _ _ _ _ _⟩

/-- A vector of the wrong length is rejected. -/
theorem C56_rejects (t : Ten K) (ts : List (Ten K)) {x : Vec K} (hx : x.n ≠ t.l * t.l) :
    unitcellTransferOperator .right (t :: ts) x = .error .value := by
  simp [unitcellTransferOperator, unitLoop, transferOperator, mixedArr, reshape2, hx]

/-- Two upper and lower tensors: the deprecated name exchanges the layers. -/
theorem C56_deprecated (dir : Dir) (U L : Ten K) (x : Vec K) :
    generalizedMatrixVectorProduct dir (.arr L) (.arr U) x = mixedTransferOperator dir (.arr U) (.arr L) x := rfl

/-- **C56 is violated** by the mixed operator of a unit cell, which raises NameError for all arguments, and for single-site MPS
objects, which the documentation allows. -/
theorem C56_violated (dir : Dir) (U L ts : List (Ten K)) (x : Vec K) :
    mixedUnitcellTransferOperator dir U L x = .error .name ∧ transferOperator dir (.mps ts) x = .error .unbound ∧
      mixedTransferOperator dir (.mps U) (.mps L) x = .error .name := ⟨rfl, rfl, rfl⟩

/-- Two sites with bond dimensions 1, 2, 1. -/
example : Linked 1 [(⟨1, 2, 2, fun _ j s => if j = s then 1 else 0⟩ : Ten ℤ), ⟨2, 1, 2, fun i _ s => if i = s then 1 else 0⟩] 1 ∧
    IsMat (⟨1, fun _ => 3⟩ : Vec ℤ) 1 fun _ _ => 3 := by
  refine ⟨by simp [Linked], by simp [IsMat]⟩

/-! ## C55 -/

/-- Spec: action of the transfer operator of a unit cell with `D` states at both ends. -/
def act (dir : Dir) (ts : List (Ten K)) (D : ℕ) (f : ℕ → ℕ → K) : ℕ → ℕ → K :=
  match dir with
  | .right => fun j j' => ∑ i ∈ range D, ∑ i' ∈ range D, f i i' * kern ts i i' j j'
  | .left => fun i i' => ∑ j ∈ range D, ∑ j' ∈ range D, kern ts i i' j j' * f j j'

/-- Spec: bilinear pairing of two matrices. -/
def pairing (D : ℕ) (f g : ℕ → ℕ → K) : K := ∑ i ∈ range D, ∑ j ∈ range D, f i j * g i j

/-- The fixed point of the direction and the one it is paired with. -/
structure Dens (dir : Dir) (D : ℕ) (ldens rdens : List (Mat K)) (own other : ℕ → ℕ → K) : Prop where
  own : ∃ m, (match dir with | .right => ldens.getLast? | .left => rdens.head?) = some m ∧ m.r = D ∧ m.c = D ∧ m.v = own
  other : ∃ m, (match dir with | .right => rdens.getLast? | .left => ldens.head?) = some m ∧ m.r = D ∧ m.c = D ∧ m.v = other

theorem unit_act (dir : Dir) {ts : List (Ten K)} (hne : ts ≠ []) {D : ℕ} (hl : Linked D ts D) {x : Vec K} {f : ℕ → ℕ → K}
    (hx : IsMat x D f) : ∃ y, unitcellTransferOperator dir ts x = .ok y ∧ IsMat y D (act dir ts D f) := by
  cases dir
  · exact C56_left ts hne hl hx
  · exact C56_right ts hne hl hx

theorem isMat_add {x y : Vec K} {D : ℕ} {f g : ℕ → ℕ → K} (hx : IsMat x D f) (hy : IsMat y D g) (c : K) :
    ∃ z, addScaled x c y = .ok z ∧ IsMat z D fun i j => f i j + c * g i j := by
  refine ⟨⟨x.n, fun k => x.v k + c * y.v k⟩, by simp [addScaled, hx.1, hy.1], hx.1, fun i hi j hj => ?_⟩
  simp only [hx.2 i hi j hj, hy.2 i hi j hj]

theorem linked_ends {ts : List (Ten K)} (hne : ts ≠ []) {l r : ℕ} (hl : Linked l ts r) :
    ∃ a b, ts.head? = some a ∧ ts.getLast? = some b ∧ a.l = l ∧ b.r = r := by
  induction ts generalizing l with
  | nil => exact absurd rfl hne
  | cons t ts ih =>
    match ts with
    | [] => exact ⟨t, t, rfl, rfl, hl.1, hl.2⟩
    | u :: ts =>
      obtain ⟨a, b, -, h2, -, h4⟩ := ih (by simp) hl.2
      exact ⟨t, b, rfl, by simpa using h2, hl.1, h4⟩

theorem pair_congr {D : ℕ} {f f' g : ℕ → ℕ → K} (h : ∀ i < D, ∀ j < D, f i j = f' i j) : pairing D f g = pairing D f' g :=
  sum_congr rfl fun i hi => sum_congr rfl fun j hj => by rw [h i (mem_range.1 hi) j (mem_range.1 hj)]

theorem pair_comm (D : ℕ) (f g : ℕ → ℕ → K) : pairing D f g = pairing D g f :=
  sum_congr rfl fun _ _ => sum_congr rfl fun _ _ => mul_comm _ _

/-- **C55 (pseudo operator).**  It is the transfer operator minus the projector on the fixed point. -/
theorem C55_pseudo (dir : Dir) {ts : List (Ten K)} (hne : ts ≠ []) {D : ℕ} (hl : Linked D ts D) {ldens rdens : List (Mat K)}
    {own other : ℕ → ℕ → K} (hd : Dens dir D ldens rdens own other) (hl0 : ldens ≠ []) (hr0 : rdens ≠ []) {x : Vec K} {f : ℕ → ℕ → K} (hx : IsMat x D f) :
    ∃ y, pseudoUnitcellTransferOperator dir ts ldens rdens x = .ok y ∧
      IsMat y D fun i j => act dir ts D f i j - pairing D f other * own i j := by
  obtain ⟨a, b, ha, hb, hal, hbr⟩ := linked_ends hne hl
  obtain ⟨y, y1, y2⟩ := unit_act dir hne hl hx
  obtain ⟨⟨mo, o1, o2, o3, o4⟩, ⟨mt, t1, t2, t3, t4⟩⟩ := hd
  obtain ⟨l0, e1⟩ : ∃ m, ldens.head? = some m := Option.isSome_iff_exists.1 (by simpa using hl0)
  obtain ⟨l1, e2⟩ : ∃ m, ldens.getLast? = some m := Option.isSome_iff_exists.1 (by simpa using hl0)
  obtain ⟨r0, e3⟩ : ∃ m, rdens.head? = some m := Option.isSome_iff_exists.1 (by simpa using hr0)
  obtain ⟨r1, e4⟩ : ∃ m, rdens.getLast? = some m := Option.isSome_iff_exists.1 (by simpa using hr0)
  have hfl : ∃ v, flat mo (D * D) = .ok v ∧ IsMat v D own := by
    obtain ⟨v, v1, v2⟩ := flat_isMat (f := own) (r := D) rfl
    refine ⟨v, ?_, v2⟩
    rw [← v1]; obtain ⟨_, _, _⟩ := mo; simp only at o2 o3 o4; subst o2 o3 o4; rfl
  obtain ⟨v, v1, v2⟩ := hfl
  have htr : traceDot (⟨D, D, fun i j => x.v (i * D + j)⟩ : Mat K) mt = .ok (pairing D f other) := by
    simp only [traceDot, t2, t3, and_self, if_true, t4]
    rw [sum_comm]
    congr 1
    exact sum_congr rfl fun i hi => sum_congr rfl fun j hj => by rw [hx.2 i (mem_range.1 hi) j (mem_range.1 hj)]
  obtain ⟨z, z1, z2⟩ := isMat_add y2 v2 (-(pairing D f other))
  refine ⟨z, ?_, isMat_congr z2 fun i _ j _ => by ring⟩
  have hre : reshape2 x D D = .ok ⟨D, D, fun i j => x.v (i * D + j)⟩ := by simp [reshape2, hx.1]
  unfold pseudoUnitcellTransferOperator
  cases dir
  · simp only [e1, e3, Option.some.injEq] at o1 t1
    subst o1 t1
    simp only [ha, hb, e1, e2, e3, e4, hal, hbr, hre, y1, htr, v1, z1]
  · simp only [e2, e4, Option.some.injEq] at o1 t1
    subst o1 t1
    simp only [ha, hb, e1, e2, e3, e4, hal, hbr, hre, y1, htr, v1, z1]

/-- **C55 (one minus pseudo operator).** -/
theorem C55_oneMinus (dir : Dir) {ts : List (Ten K)} (hne : ts ≠ []) {D : ℕ} (hl : Linked D ts D) {ldens rdens : List (Mat K)}
    {own other : ℕ → ℕ → K} (hd : Dens dir D ldens rdens own other) (hl0 : ldens ≠ []) (hr0 : rdens ≠ []) {x : Vec K} {f : ℕ → ℕ → K} (hx : IsMat x D f) :
    ∃ y, oneMinusPseudoUnitcell dir ts ldens rdens x = .ok y ∧
      IsMat y D fun i j => f i j - act dir ts D f i j + pairing D f other * own i j := by
  obtain ⟨a, b, ha, hb, hal, hbr⟩ := linked_ends hne hl
  obtain ⟨y, y1, y2⟩ := unit_act dir hne hl hx
  obtain ⟨⟨mo, o1, o2, o3, o4⟩, ⟨mt, t1, t2, t3, t4⟩⟩ := hd
  obtain ⟨l0, e1⟩ : ∃ m, ldens.head? = some m := Option.isSome_iff_exists.1 (by simpa using hl0)
  obtain ⟨l1, e2⟩ : ∃ m, ldens.getLast? = some m := Option.isSome_iff_exists.1 (by simpa using hl0)
  obtain ⟨r0, e3⟩ : ∃ m, rdens.head? = some m := Option.isSome_iff_exists.1 (by simpa using hr0)
  obtain ⟨r1, e4⟩ : ∃ m, rdens.getLast? = some m := Option.isSome_iff_exists.1 (by simpa using hr0)
  have hfl : ∃ v, flat mo (D * D) = .ok v ∧ IsMat v D own := by
    obtain ⟨v, v1, v2⟩ := flat_isMat (f := own) (r := D) rfl
    refine ⟨v, ?_, v2⟩
    rw [← v1]; obtain ⟨_, _, _⟩ := mo; simp only at o2 o3 o4; subst o2 o3 o4; rfl
  obtain ⟨v, v1, v2⟩ := hfl
  have hp1 : pairMat (⟨D, D, fun i j => x.v (i * D + j)⟩ : Mat K) mt = .ok (pairing D f other) := by
    simp only [pairMat, t2, t3, and_self, if_true, t4]
    congr 1
    exact sum_congr rfl fun i hi => sum_congr rfl fun j hj => by rw [hx.2 i (mem_range.1 hi) j (mem_range.1 hj)]
  have hp2 : pairMat mt (⟨D, D, fun i j => x.v (i * D + j)⟩ : Mat K) = .ok (pairing D f other) := by
    simp only [pairMat, t2, t3, and_self, if_true, t4]
    congr 1
    exact sum_congr rfl fun i hi => sum_congr rfl fun j hj => by rw [hx.2 i (mem_range.1 hi) j (mem_range.1 hj), mul_comm]
  obtain ⟨w, w1, w2⟩ := isMat_add hx y2 (-1)
  obtain ⟨z, z1, z2⟩ := isMat_add w2 v2 (pairing D f other)
  refine ⟨z, ?_, isMat_congr z2 fun i _ j _ => by ring⟩
  have hre : reshape2 x D D = .ok ⟨D, D, fun i j => x.v (i * D + j)⟩ := by simp [reshape2, hx.1]
  unfold oneMinusPseudoUnitcell
  cases dir
  · simp only [e1, e3, Option.some.injEq] at o1 t1
    subst o1 t1
    simp only [ha, hb, e1, e2, e3, e4, hal, hbr, hre, y1, hp2, v1, w1, z1]
  · simp only [e2, e4, Option.some.injEq] at o1 t1
    subst o1 t1
    simp only [ha, hb, e1, e2, e3, e4, hal, hbr, hre, y1, hp1, v1, w1, z1]

/-- **C55 (consistency).**  One minus pseudo operator is the vector minus the pseudo operator. -/
theorem C55_consistent (dir : Dir) {ts : List (Ten K)} (hne : ts ≠ []) {D : ℕ} (hl : Linked D ts D) {ldens rdens : List (Mat K)}
    {own other : ℕ → ℕ → K} (hd : Dens dir D ldens rdens own other) (hl0 : ldens ≠ []) (hr0 : rdens ≠ []) {x : Vec K} (hx : x.n = D * D) :
    ∃ y z, pseudoUnitcellTransferOperator dir ts ldens rdens x = .ok y ∧ oneMinusPseudoUnitcell dir ts ldens rdens x = .ok z ∧
      ∀ i < D, ∀ j < D, z.v (i * D + j) = x.v (i * D + j) - y.v (i * D + j) := by
  have hx' : IsMat x D fun i j => x.v (i * D + j) := ⟨hx, fun _ _ _ _ => rfl⟩
  obtain ⟨y, y1, y2⟩ := C55_pseudo dir hne hl hd hl0 hr0 hx'
  obtain ⟨z, z1, z2⟩ := C55_oneMinus dir hne hl hd hl0 hr0 hx'
  exact ⟨y, z, y1, z1, fun i hi j hj => by rw [z2.2 i hi j hj, y2.2 i hi j hj]; ring⟩

/-- **C55 (fixed point).**  The pseudo operator annihilates a normalised fixed point. -/
theorem C55_annihilates (dir : Dir) {ts : List (Ten K)} (hne : ts ≠ []) {D : ℕ} (hl : Linked D ts D) {ldens rdens : List (Mat K)}
    {own other : ℕ → ℕ → K} (hd : Dens dir D ldens rdens own other) (hl0 : ldens ≠ []) (hr0 : rdens ≠ [])
    (hfix : ∀ i < D, ∀ j < D, act dir ts D own i j = own i j) (hnorm : pairing D own other = 1) {x : Vec K} (hx : IsMat x D own) :
    ∃ y, pseudoUnitcellTransferOperator dir ts ldens rdens x = .ok y ∧ IsMat y D fun _ _ => 0 := by
  obtain ⟨y, y1, y2⟩ := C55_pseudo dir hne hl hd hl0 hr0 hx
  exact ⟨y, y1, isMat_congr y2 fun i hi j hj => by rw [hfix i hi j hj, hnorm]; ring⟩

/-- The action is adjoint to the one in the other direction. -/
theorem pair_act (ts : List (Ten K)) (D : ℕ) (f g : ℕ → ℕ → K) : pairing D (act .right ts D f) g = pairing D f (act .left ts D g) :=
  sum_assoc4 _ _ _ _ _

/-- The opposite direction. -/
def opp : Dir → Dir
  | .left => .right
  | .right => .left

/-- **C55 (solution of the linear system).**  Let both densities be fixed points with unit overlap.  If the right-hand side has no overlap
with the other fixed point, a solution `y` of the system has none either and solves the singular equation `y - y E = x`. -/
theorem C55_solution (dir : Dir) {ts : List (Ten K)} (hne : ts ≠ []) {D : ℕ} (hl : Linked D ts D) {ldens rdens : List (Mat K)}
    {own other : ℕ → ℕ → K} (hd : Dens dir D ldens rdens own other) (hl0 : ldens ≠ []) (hr0 : rdens ≠ [])
    (hfix : ∀ i < D, ∀ j < D, act (opp dir) ts D other i j = other i j) (hnorm : pairing D own other = 1)
    {y : Vec K} {f g : ℕ → ℕ → K} (hy : IsMat y D g) (h0 : pairing D f other = 0)
    (hsol : ∃ z, oneMinusPseudoUnitcell dir ts ldens rdens y = .ok z ∧ IsMat z D f) :
    pairing D g other = 0 ∧ ∀ i < D, ∀ j < D, g i j - act dir ts D g i j = f i j := by
  obtain ⟨z, z1, z2⟩ := C55_oneMinus dir hne hl hd hl0 hr0 hy
  obtain ⟨z', z1', z2'⟩ := hsol
  rw [z1] at z1'
  simp only [Except.ok.injEq] at z1'
  subst z1'
  have heq : ∀ i < D, ∀ j < D, f i j = g i j - act dir ts D g i j + pairing D g other * own i j := fun i hi j hj => by
    rw [← z2'.2 i hi j hj, z2.2 i hi j hj]
  have hadj : pairing D (act dir ts D g) other = pairing D g other := by
    cases dir
    · rw [pair_comm, ← pair_act, pair_comm D g]
      exact pair_congr hfix
    · rw [pair_act, pair_comm, pair_comm D g]
      exact pair_congr hfix
  have hp : pairing D g other = 0 := by
    have h1 : pairing D f other = pairing D g other - pairing D (act dir ts D g) other + pairing D g other * pairing D own other := by
      rw [pair_congr heq]
      simp only [pairing, add_mul, sub_mul, sum_add_distrib, sum_sub_distrib, mul_sum, mul_assoc]
    rw [h0, hadj, hnorm] at h1
    linear_combination -h1
  exact ⟨hp, fun i hi j hj => by rw [heq i hi j hj, hp]; ring⟩

/-- Partial sums of a sequence of vectors. -/
def vsum (D : ℕ) (xs : ℕ → Vec K) (n : ℕ) : Vec K := ⟨D * D, fun k => ∑ m ∈ range n, (xs m).v k⟩

theorem act_sum (dir : Dir) (ts : List (Ten K)) (D n : ℕ) (f : ℕ → ℕ → ℕ → K) (i j : ℕ) :
    act dir ts D (fun a b => ∑ m ∈ range n, f m a b) i j = ∑ m ∈ range n, act dir ts D (f m) i j := by
  cases dir
  all_goals
    simp only [act, sum_mul, mul_sum]
    rw [sum_comm (s := range n)]
    refine sum_congr rfl fun a _ => ?_
    rw [sum_comm (s := range n)]

theorem pair_sum (D n : ℕ) (f : ℕ → ℕ → ℕ → K) (g : ℕ → ℕ → K) :
    pairing D (fun a b => ∑ m ∈ range n, f m a b) g = ∑ m ∈ range n, pairing D (f m) g := by
  simp only [pairing, sum_mul]
  rw [sum_comm (s := range n)]
  refine sum_congr rfl fun a _ => ?_
  rw [sum_comm (s := range n)]

/-- **C55 (geometric series).**  Applied to the partial sums of the iterates of the pseudo operator, one minus pseudo operator
telescopes to the first minus the last iterate. -/
theorem C55_telescopes (dir : Dir) {ts : List (Ten K)} (hne : ts ≠ []) {D : ℕ} (hl : Linked D ts D) {ldens rdens : List (Mat K)}
    {own other : ℕ → ℕ → K} (hd : Dens dir D ldens rdens own other) (hl0 : ldens ≠ []) (hr0 : rdens ≠ []) {xs : ℕ → Vec K}
    (hn : ∀ m, (xs m).n = D * D) (hit : ∀ m, pseudoUnitcellTransferOperator dir ts ldens rdens (xs m) = .ok (xs (m + 1))) (n : ℕ) :
    ∃ z, oneMinusPseudoUnitcell dir ts ldens rdens (vsum D xs n) = .ok z ∧
      ∀ i < D, ∀ j < D, z.v (i * D + j) = (xs 0).v (i * D + j) - (xs n).v (i * D + j) := by
  let f : ℕ → ℕ → ℕ → K := fun m i j => (xs m).v (i * D + j)
  have hx : ∀ m, IsMat (xs m) D (f m) := fun m => ⟨hn m, fun _ _ _ _ => rfl⟩
  have hstep : ∀ m, ∀ i < D, ∀ j < D, f (m + 1) i j = act dir ts D (f m) i j - pairing D (f m) other * own i j := by
    intro m i hi j hj
    obtain ⟨y, y1, y2⟩ := C55_pseudo dir hne hl hd hl0 hr0 (hx m)
    rw [hit m] at y1
    simp only [Except.ok.injEq] at y1
    subst y1
    exact y2.2 i hi j hj
  have hs : IsMat (vsum D xs n) D fun i j => ∑ m ∈ range n, f m i j := ⟨rfl, fun _ _ _ _ => rfl⟩
  obtain ⟨z, z1, z2⟩ := C55_oneMinus dir hne hl hd hl0 hr0 hs
  refine ⟨z, z1, fun i hi j hj => ?_⟩
  have h := z2.2 i hi j hj
  simp only [act_sum, pair_sum, sum_mul] at h
  rw [← sum_sub_distrib, ← sum_add_distrib] at h
  rw [h]
  have hcon : ∀ m ∈ range n, f m i j - act dir ts D (f m) i j + pairing D (f m) other * own i j = f m i j - f (m + 1) i j := by
    intro m _; rw [hstep m i hi j hj]; ring
  rw [sum_congr rfl hcon, sum_range_sub']

/-- The single-site pseudo operator is that of a cell with one site. -/
theorem C55_single_pseudo (dir : Dir) (A : Ten K) (h : A.l = A.r) (r l : Mat K) (x : Vec K) (hs : r.r = A.l ∧ r.c = A.l ∧ l.r = A.l ∧ l.c = A.l) :
    pseudoTransferOperator A r l dir x = pseudoUnitcellTransferOperator dir [A] [l] [r] x := by
  have hloop : ∀ dir, unitcellTransferOperator dir [A] x = transferOperator dir (.arr A) x := by
    intro dir
    cases dir <;> simp only [unitcellTransferOperator, unitLoop, List.reverse_singleton, List.cons_ne_nil, if_false] <;>
      split <;> simp_all
  have hpt : ∀ X : Mat K, X.r = A.l → X.c = A.l → pairMat X r = traceDot X r ∧ pairMat l X = traceDot X l := by
    intro X h1 h2
    simp only [pairMat, traceDot, hs, h1, h2, and_self, if_true, Except.ok.injEq]
    exact ⟨sum_comm, by rw [sum_comm]; exact sum_congr rfl fun _ _ => sum_congr rfl fun _ _ => mul_comm _ _⟩
  unfold pseudoTransferOperator pseudoUnitcellTransferOperator
  by_cases hx : x.n = A.l * A.l
  · have hre : reshape2 x A.l A.l = .ok ⟨A.l, A.l, fun i j => x.v (i * A.l + j)⟩ := by simp [reshape2, hx]
    cases dir
    · simp only [List.head?_cons, List.getLast?_singleton, ← h, hre, hloop, (hpt ⟨A.l, A.l, fun i j => x.v (i * A.l + j)⟩ rfl rfl).2]
    · simp only [List.head?_cons, List.getLast?_singleton, ← h, hre, hloop, (hpt ⟨A.l, A.l, fun i j => x.v (i * A.l + j)⟩ rfl rfl).1]
  · have hre : reshape2 x A.l A.l = .error .value := by simp [reshape2, hx]
    cases dir <;> simp only [List.head?_cons, List.getLast?_singleton, ← h, hre]

end transfer

/-- The single-site operator at momentum below `1E-8` is that of a cell with one site. -/
theorem C55_single_oneMinus (dir : Dir) (A : Ten ℂ) (r l : Mat ℂ) (x : Vec ℂ) {k : ℝ} (hk : k < 1e-8) :
    oneMinusPseudo A A r l dir k x = oneMinusPseudoUnitcell dir [A] [l] [r] x := by
  have hloop : ∀ dir, unitcellTransferOperator dir [A] x = mixedTransferOperator dir (.arr A) (.arr A) x := by
    intro dir
    have h0 : mixedTransferOperator dir (.arr A) (.arr A) x = transferOperator dir (.arr A) x := rfl
    rw [h0]
    cases dir <;> simp only [unitcellTransferOperator, unitLoop, List.reverse_singleton, List.cons_ne_nil, if_false] <;>
      split <;> simp_all
  unfold oneMinusPseudo oneMinusPseudoUnitcell
  simp only [if_pos hk]
  cases dir
  · simp only [List.head?_cons, List.getLast?_singleton, hloop]
    rcases reshape2 x A.r A.r with _ | X
    · rfl
    · rcases mixedTransferOperator Dir.left (Arg.arr A) (Arg.arr A) x with _ | y
      · rfl
      · simp only
        rcases addScaled x (-1) y with _ | z
        · rfl
        · simp only
          rcases pairMat l X with _ | c
          · rfl
          · simp only
            rcases flat r (A.l * A.l) with _ | f <;> rfl
  · simp only [List.head?_cons, List.getLast?_singleton, hloop]
    rcases reshape2 x A.l A.l with _ | X
    · rfl
    · rcases mixedTransferOperator Dir.right (Arg.arr A) (Arg.arr A) x with _ | y
      · rfl
      · simp only
        rcases addScaled x (-1) y with _ | z
        · rfl
        · simp only
          rcases pairMat X r with _ | c
          · rfl
          · simp only
            rcases flat l (A.r * A.r) with _ | f <;> rfl

/-- **C76 is violated for negative momenta**, which are treated like zero momentum: for the product state with `A=l=r=1` and
momentum `-π` the result is `x`, while `x - exp(ik) x E` is `2x`. -/
theorem C76_violated_negative :
    (∃ y, oneMinusPseudo ⟨1, 1, 1, fun _ _ _ => 1⟩ ⟨1, 1, 1, fun _ _ _ => 1⟩ ⟨1, 1, fun _ _ => 1⟩ ⟨1, 1, fun _ _ => 1⟩ .right (-Real.pi) ⟨1, fun _ => 1⟩ = .ok y ∧ y.v 0 = 1) ∧
    (1 : ℂ) - Complex.exp (Complex.I * ((-Real.pi : ℝ) : ℂ)) * 1 = 2 := by
  refine ⟨?_, ?_⟩
  · have hk : -Real.pi < 1e-8 := by have := Real.pi_pos; norm_num; linarith
    simp only [oneMinusPseudo, mixedTransferOperator, mixedArr, reshape2, flat, pairMat, addScaled, if_pos hk]
    simp
  · have h : Complex.I * ((-Real.pi : ℝ) : ℂ) = -(Real.pi * Complex.I) := by push_cast; ring
    rw [h, Complex.exp_neg, Complex.exp_pi_mul_I]; norm_num

/-- **C76, for positive momenta.**  Positive momenta (from `1E-8` on) give `x - exp(ik) x E`. -/
theorem C76_momentum_partial (U L : Ten ℂ) (r l : Mat ℂ) (dir : Dir) {k : ℝ} (hk : 1e-8 ≤ k) {x y : Vec ℂ}
    (hy : mixedTransferOperator dir (.arr U) (.arr L) x = .ok y) (hn : x.n = y.n) :
    ∃ z, oneMinusPseudo U L r l dir k x = .ok z ∧ ∀ m, z.v m = x.v m - Complex.exp (Complex.I * k) * y.v m := by
  have hre : ∃ X, reshape2 x (match dir with | .right => U.l | .left => U.r) (match dir with | .right => L.l | .left => L.r) = .ok X := by
    cases dir <;> simp only [mixedTransferOperator, mixedArr] at hy <;> split at hy <;> simp_all
  obtain ⟨X, hX⟩ := hre
  refine ⟨⟨x.n, fun m => x.v m + -Complex.exp (Complex.I * k) * y.v m⟩, ?_, fun m => by simp only; ring⟩
  unfold oneMinusPseudo
  cases dir <;> simp only at hX <;> simp only [hX, hy, if_neg (not_lt.2 hk), addScaled, hn, if_true]

/-- A product state with two local states: densities and fixed points meeting the hypotheses. -/
example : let A : Ten ℂ := ⟨1, 1, 2, fun _ _ s => if s = 0 then 3 / 5 else 4 / 5⟩
    Linked 1 [A] 1 ∧ Dens .right 1 [(⟨1, 1, fun _ _ => 1⟩ : Mat ℂ)] [⟨1, 1, fun _ _ => 1⟩] (fun _ _ => 1) (fun _ _ => 1) ∧
    pairing 1 (fun _ _ => (1 : ℂ)) (fun _ _ => 1) = 1 ∧ act .right [A] 1 (fun _ _ => 1) 0 0 = 1 := by
  refine ⟨⟨rfl, rfl⟩, ⟨⟨_, rfl, rfl, rfl, rfl⟩, ⟨_, rfl, rfl, rfl, rfl⟩⟩, by simp [pairing], ?_⟩
  have h3 : (starRingEnd ℂ) 3 = 3 := Complex.conj_ofNat 3
  have h4 : (starRingEnd ℂ) 4 = 4 := Complex.conj_ofNat 4
  have h5 : (starRingEnd ℂ) 5 = 5 := Complex.conj_ofNat 5
  simp [act, kern, sumCfg, chain, sum_range_succ, h3, h4, h5]
  norm_num

end PyTeN
