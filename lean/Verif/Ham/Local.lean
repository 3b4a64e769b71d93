import Verif.Engine.Container

/-! # Sums of local terms and MPOs of nearest-neighbour form

Vocabulary shared by the Hamiltonian constructors of lib/mpslib/Hamiltonians.py: the numpy assignments that fill
an MPO tensor, the specification of a sum of one- and two-site operators through its matrix elements, and the
lemma that an MPO in lower-triangular nearest-neighbour form has those matrix elements. -/

namespace PyTeN
open Finset

noncomputable section

/-! ## numpy assignments -/

/-- `np.zeros((l,r,d,d))`, e.g. lib/mpslib/Hamiltonians.py:180; the dtype is not modelled. -/
def Mpo.zeros (l r d : ℕ) : Mpo ℂ := ⟨l, r, d, d, fun _ _ _ _ => 0⟩

/-- `temp[b,c,s,t]=x`, e.g. lib/mpslib/Hamiltonians.py:182. -/
def Mpo.put (W : Mpo ℂ) (b c s t : ℕ) (x : ℂ) : Mpo ℂ :=
  { W with v := fun b' c' s' t' => if b' = b ∧ c' = c ∧ s' = s ∧ t' = t then x else W.v b' c' s' t' }

/-- `temp[b,c,:,:]=M`, e.g. lib/mpslib/Hamiltonians.py:277. -/
def Mpo.blk (W : Mpo ℂ) (b c : ℕ) (M : Mat ℂ) : Mpo ℂ :=
  { W with v := fun b' c' s' t' => if b' = b ∧ c' = c then M.v s' t' else W.v b' c' s' t' }

/-- `l[-1]`. -/
def lastE {α : Type*} (l : List α) : Res α := if l = [] then .error .index else getE l (l.length - 1)

/-- `for n in …: self._mpo.append(f(n))`. -/
def buildE {α : Type*} (f : ℕ → Res α) : List ℕ → Res (List α)
  | [] => .ok []
  | n :: ns =>
    match f n with
    | .error x => .error x
    | .ok a =>
      match buildE f ns with
      | .error x => .error x
      | .ok as => .ok (a :: as)

/-- Shape shared by the open-boundary branches, e.g. lib/mpslib/Hamiltonians.py:178-225: left tensor, loop
`for n in range(1,self._N-1)`, right tensor. -/
def openMpo (first : Res (Mpo ℂ)) (bulk : ℕ → Res (Mpo ℂ)) (last : Res (Mpo ℂ)) (N : ℕ) : Res (List (Mpo ℂ)) :=
  match first with
  | .error x => .error x
  | .ok f =>
    match buildE bulk (List.range' 1 (N - 2)) with
    | .error x => .error x
    | .ok b =>
      match last with
      | .error x => .error x
      | .ok l => .ok (f :: b ++ [l])

/-! ## Specification: sums of local operators -/

/-- One-site operator `o` at site `n` of a chain of `N` sites of dimension `d`. -/
def at1 (d N n : ℕ) (o : Mat ℂ) : List (Mat ℂ) :=
  List.replicate n (eyeK ℂ d) ++ o :: List.replicate (N - 1 - n) (eyeK ℂ d)

/-- Product `a ⊗ b` at the sites `n`, `n+1`. -/
def at2 (d N n : ℕ) (a b : Mat ℂ) : List (Mat ℂ) :=
  List.replicate n (eyeK ℂ d) ++ a :: b :: List.replicate (N - 2 - n) (eyeK ℂ d)

/-- Local data of a nearest-neighbour Hamiltonian at one site: on-site term, operators opening a channel (left
factors of the bond to the right) and operators closing a channel (right factors of the bond to the left). -/
structure Loc where
  h : Mat ℂ
  A : ℕ → Mat ℂ
  B : ℕ → Mat ℂ

/-- Matrix element of `Σ_n h_n + Σ_n Σ_{k<K} A_n^k ⊗ B_{n+1}^k` between configurations `s` (in) and `t` (out). -/
def hamEl (d K N : ℕ) (X : ℕ → Loc) (s t : List ℕ) : ℂ :=
  ∑ n ∈ range N, opEl (at1 d N n (X n).h) s t +
    ∑ n ∈ range (N - 1), ∑ k ∈ range K, opEl (at2 d N n ((X n).A k) ((X (n + 1)).B k)) s t

/-- A configuration of `N` sites of dimension `d`. -/
def Cf (d N : ℕ) (s : List ℕ) : Prop := s.length = N ∧ ∀ x ∈ s, x < d

theorem Cf.cons_iff {d N x : ℕ} {s : List ℕ} : Cf d (N + 1) (x :: s) ↔ x < d ∧ Cf d N s := by
  simp [Cf]; tauto

theorem Cf.exists_cons {d N : ℕ} {s : List ℕ} (h : Cf d (N + 1) s) : ∃ x ss, s = x :: ss ∧ x < d ∧ Cf d N ss := by
  cases s with
  | nil => simp [Cf] at h
  | cons x ss => exact ⟨x, ss, rfl, Cf.cons_iff.mp h⟩

theorem Cf.zero {d : ℕ} {s : List ℕ} (h : Cf d 0 s) : s = [] := by simpa using h.1

/-! ## Nearest-neighbour form -/

/-- Tensor of the left boundary: row `(h, A^0, …, A^{K-1}, 1)`. -/
structure NNFirst (d K : ℕ) (W : Mpo ℂ) (X : Loc) : Prop where
  l : W.l = 1
  r : W.r = K + 2
  din : W.din = d
  dout : W.dout = d
  h : ∀ s < d, ∀ t < d, W.v 0 0 s t = X.h.v s t
  A : ∀ k < K, ∀ s < d, ∀ t < d, W.v 0 (k + 1) s t = (X.A k).v s t
  one : ∀ s < d, ∀ t < d, W.v 0 (K + 1) s t = delta ℂ s t

/-- Bulk tensor: first column `(1, B^0, …, B^{K-1}, h)`, last row `(h, A^0, …, A^{K-1}, 1)`, zero elsewhere. -/
structure NNBulk (d K : ℕ) (W : Mpo ℂ) (X : Loc) : Prop where
  l : W.l = K + 2
  r : W.r = K + 2
  din : W.din = d
  dout : W.dout = d
  top : ∀ s < d, ∀ t < d, W.v 0 0 s t = delta ℂ s t
  B : ∀ k < K, ∀ s < d, ∀ t < d, W.v (k + 1) 0 s t = (X.B k).v s t
  h : ∀ s < d, ∀ t < d, W.v (K + 1) 0 s t = X.h.v s t
  A : ∀ k < K, ∀ s < d, ∀ t < d, W.v (K + 1) (k + 1) s t = (X.A k).v s t
  one : ∀ s < d, ∀ t < d, W.v (K + 1) (K + 1) s t = delta ℂ s t
  zero : ∀ b < K + 1, ∀ c < K + 1, ∀ s < d, ∀ t < d, W.v b (c + 1) s t = 0

/-- Tensor of the right boundary: column `(1, B^0, …, B^{K-1}, h)`. -/
structure NNLast (d K : ℕ) (W : Mpo ℂ) (X : Loc) : Prop where
  l : W.l = K + 2
  r : W.r = 1
  din : W.din = d
  dout : W.dout = d
  top : ∀ s < d, ∀ t < d, W.v 0 0 s t = delta ℂ s t
  B : ∀ k < K, ∀ s < d, ∀ t < d, W.v (k + 1) 0 s t = (X.B k).v s t
  h : ∀ s < d, ∀ t < d, W.v (K + 1) 0 s t = X.h.v s t

/-- An open MPO of nearest-neighbour form with `N ≥ 2` sites. -/
structure NNForm (d K N : ℕ) (Ws : List (Mpo ℂ)) (X : ℕ → Loc) : Prop where
  two : 2 ≤ N
  len : Ws.length = N
  first : ∀ W, Ws[0]? = some W → NNFirst d K W (X 0)
  bulk : ∀ n W, 0 < n → n < N - 1 → Ws[n]? = some W → NNBulk d K W (X n)
  last : ∀ W, Ws[N - 1]? = some W → NNLast d K W (X (N - 1))

theorem buildE_ok {α : Type*} {f : ℕ → Res α} {g : ℕ → α} {l : List ℕ} (h : ∀ n ∈ l, f n = .ok (g n)) :
    buildE f l = .ok (l.map g) := by
  induction l with
  | nil => rfl
  | cons n ns ih =>
    simp only [buildE, h n (by simp), ih fun m hm => h m (by simp [hm]), List.map_cons]

theorem buildE_error {α : Type*} {f : ℕ → Res α} {l : List ℕ} {e : PyErr} {n : ℕ} (hn : n ∈ l) (h : f n = .error e) :
    ∃ e', buildE f l = .error e' := by
  induction l with
  | nil => simp at hn
  | cons m ms ih =>
    simp only [buildE]
    cases hf : f m with
    | error x => exact ⟨x, rfl⟩
    | ok a =>
      simp only
      rcases List.mem_cons.mp hn with rfl | hn
      · rw [hf] at h; cases h
      · obtain ⟨e', he⟩ := ih hn
        exact ⟨e', by rw [he]⟩

theorem openMpo_ok {first last : Res (Mpo ℂ)} {bulk : ℕ → Res (Mpo ℂ)} {N : ℕ} {f l : Mpo ℂ} {g : ℕ → Mpo ℂ}
    (hf : first = .ok f) (hb : ∀ n, 0 < n → n < N - 1 → bulk n = .ok (g n)) (hl : last = .ok l) :
    openMpo first bulk last N = .ok (f :: (List.range' 1 (N - 2)).map g ++ [l]) := by
  have := buildE_ok (f := bulk) (g := g) (l := List.range' 1 (N - 2)) (by
    intro n hn
    simp only [List.mem_range'_1] at hn
    exact hb n (by omega) (by omega))
  simp only [openMpo, hf, this, hl]

/-- A list built by `openMpo` is of nearest-neighbour form when its tensors are. -/
theorem nnForm_of {d K N : ℕ} {X : ℕ → Loc} {f l : Mpo ℂ} {g : ℕ → Mpo ℂ} (hN : 2 ≤ N) (hf : NNFirst d K f (X 0))
    (hb : ∀ n, 0 < n → n < N - 1 → NNBulk d K (g n) (X n)) (hl : NNLast d K l (X (N - 1))) :
    NNForm d K N (f :: (List.range' 1 (N - 2)).map g ++ [l]) X := by
  refine ⟨hN, by simp; omega, ?_, ?_, ?_⟩
  · intro W hW; simp at hW; exact hW ▸ hf
  · intro n W h0 h1 hW
    obtain ⟨m, rfl⟩ : ∃ m, n = m + 1 := ⟨n - 1, by omega⟩
    rw [List.cons_append, List.getElem?_cons_succ, List.getElem?_append_left (by simp; omega)] at hW
    simp only [List.getElem?_map, List.getElem?_range' (show m < N - 2 by omega), Option.map_some, Option.some.injEq] at hW
    subst hW
    rw [show 1 + 1 * m = m + 1 by omega]
    exact hb _ h0 h1
  · intro W hW
    obtain ⟨m, rfl⟩ : ∃ m, N = m + 2 := ⟨N - 2, by omega⟩
    rw [show m + 2 - 1 = m + 1 by omega, List.cons_append, List.getElem?_cons_succ,
      List.getElem?_append_right (by simp)] at hW
    simp at hW
    exact hW ▸ hl

/-! ## Matrix elements -/

/-- Recursive form of `hamEl` for the sites `n, …, n+m`. -/
def hamRec (d K : ℕ) (X : ℕ → Loc) : ℕ → ℕ → List ℕ → List ℕ → ℂ
  | 0, n, s, t => opEl [(X n).h] s t
  | m + 1, n, s :: ss, t :: tt =>
    (X n).h.v s t * opEl (List.replicate (m + 1) (eyeK ℂ d)) ss tt +
      ∑ k ∈ range K, ((X n).A k).v s t * opEl ((X (n + 1)).B k :: List.replicate m (eyeK ℂ d)) ss tt +
      delta ℂ s t * hamRec d K X m (n + 1) ss tt
  | _ + 1, _, _, _ => 0

theorem hamRec_eq (d K : ℕ) (X : ℕ → Loc) (m n : ℕ) (s t : List ℕ) (hs : s.length = m + 1) (ht : t.length = m + 1) :
    hamRec d K X m n s t = hamEl d K (m + 1) (fun i => X (n + i)) s t := by
  induction m generalizing n s t with
  | zero => simp [hamRec, hamEl, at1]
  | succ m ih =>
    obtain ⟨x, ss, rfl⟩ := List.exists_cons_of_length_eq_add_one hs
    obtain ⟨y, tt, rfl⟩ := List.exists_cons_of_length_eq_add_one ht
    simp only [List.length_cons, Nat.add_right_cancel_iff] at hs ht
    rw [hamRec, ih (n + 1) ss tt hs ht]
    unfold hamEl
    rw [show m + 1 + 1 - 1 = m + 1 by omega, show m + 1 - 1 = m by omega]
    have hA : ∀ f g : ℕ → ℂ, ∑ i ∈ range (m + 1 + 1), f i + ∑ i ∈ range (m + 1), g i
        = (∑ i ∈ range (m + 1), f (i + 1) + f 0) + (∑ i ∈ range m, g (i + 1) + g 0) := by
      intro f g; rw [sum_range_succ', sum_range_succ' g]
    rw [hA]
    have e1 : ∀ i, opEl (at1 d (m + 1 + 1) (i + 1) (X (n + (i + 1))).h) (x :: ss) (y :: tt)
        = delta ℂ x y * opEl (at1 d (m + 1) i (X (n + 1 + i)).h) ss tt := by
      intro i
      rw [show n + 1 + i = n + (i + 1) by omega]
      simp only [at1, List.replicate_succ, List.cons_append, opEl, eyeK]
      rw [show m + 1 + 1 - 1 - (i + 1) = m + 1 - 1 - i by omega]
    have e2 : ∀ i k, opEl (at2 d (m + 1 + 1) (i + 1) ((X (n + (i + 1))).A k) ((X (n + (i + 1 + 1))).B k)) (x :: ss) (y :: tt)
        = delta ℂ x y * opEl (at2 d (m + 1) i ((X (n + 1 + i)).A k) ((X (n + 1 + (i + 1))).B k)) ss tt := by
      intro i k
      rw [show n + 1 + i = n + (i + 1) by omega, show n + 1 + (i + 1) = n + (i + 1 + 1) by omega]
      simp only [at2, List.replicate_succ, List.cons_append, opEl, eyeK]
      rw [show m + 1 + 1 - 2 - (i + 1) = m + 1 - 2 - i by omega]
    simp only [e1, e2, ← mul_sum]
    simp only [at1, at2, List.replicate_zero, List.nil_append, opEl, Nat.add_zero, Nat.zero_add, Nat.sub_zero]
    rw [show m + 1 + 1 - 1 = m + 1 by omega, show m + 1 + 1 - 2 = m by omega]
    ring

/-- Contraction of the tensors right of a bond with the right boundary, by the state of the bond. -/
theorem right_env {d K : ℕ} {X : ℕ → Loc} {g : ℕ → Mpo ℂ} {l : Mpo ℂ} (m n : ℕ)
    (hb : ∀ i, n ≤ i → i < n + m → NNBulk d K (g i) (X i)) (hl : NNLast d K l (X (n + m))) (s t : List ℕ)
    (hs : Cf d (m + 1) s) (ht : Cf d (m + 1) t) :
    mchain ((List.range' n m).map g ++ [l]) s t 0 0 = opEl (List.replicate (m + 1) (eyeK ℂ d)) s t ∧
    (∀ k < K, mchain ((List.range' n m).map g ++ [l]) s t (k + 1) 0
      = opEl ((X n).B k :: List.replicate m (eyeK ℂ d)) s t) ∧
    mchain ((List.range' n m).map g ++ [l]) s t (K + 1) 0 = hamRec d K X m n s t := by
  induction m generalizing n s t with
  | zero =>
    obtain ⟨x, ss, rfl, hx, hss⟩ := hs.exists_cons
    obtain ⟨y, tt, rfl, hy, htt⟩ := ht.exists_cons
    obtain rfl := hss.zero
    obtain rfl := htt.zero
    simp only [Nat.add_zero] at hl
    simp only [List.range'_zero, List.map_nil, List.nil_append, mchain, hl.r, sum_range_one, delta_self, mul_one,
      opEl, List.replicate, hamRec, eyeK]
    exact ⟨hl.top x hx y hy, fun k hk => hl.B k hk x hx y hy, hl.h x hx y hy⟩
  | succ m ih =>
    obtain ⟨x, ss, rfl, hx, hss⟩ := hs.exists_cons
    obtain ⟨y, tt, rfl, hy, htt⟩ := ht.exists_cons
    obtain ⟨i1, i2, i3⟩ := ih (n + 1) (fun i h1 h2 => hb i (by omega) (by omega))
      (by rw [show n + 1 + m = n + (m + 1) by omega]; exact hl) ss tt hss htt
    have W := hb n (le_refl _) (by omega)
    simp only [List.range'_succ, List.map_cons, List.cons_append, mchain, W.r, sum_range_succ' (n := K + 1)]
    refine ⟨?_, ?_, ?_⟩
    · rw [i1, W.top x hx y hy, sum_eq_zero fun c hc => by rw [W.zero 0 (by omega) c (mem_range.mp hc) x hx y hy, zero_mul]]
      simp only [List.replicate_succ, opEl, eyeK]; ring
    · intro k hk
      rw [i1, W.B k hk x hx y hy,
        sum_eq_zero fun c hc => by rw [W.zero (k + 1) (by omega) c (mem_range.mp hc) x hx y hy, zero_mul]]
      simp only [opEl]; ring
    · rw [i1, W.h x hx y hy, sum_range_succ, i3, W.one x hx y hy,
        sum_congr rfl fun c hc => by rw [W.A c (mem_range.mp hc) x hx y hy, i2 c (mem_range.mp hc)]]
      simp only [hamRec]; ring

/-- The matrix elements of an MPO of nearest-neighbour form. -/
theorem nn_mchain {d K N : ℕ} {X : ℕ → Loc} {Ws : List (Mpo ℂ)} (h : NNForm d K N Ws X) (s t : List ℕ)
    (hs : Cf d N s) (ht : Cf d N t) : mchain Ws s t 0 0 = hamEl d K N X s t := by
  obtain ⟨hN, hlen, hf, hb, hl⟩ := h
  obtain ⟨m, rfl⟩ : ∃ m, N = m + 1 + 1 := ⟨N - 2, by omega⟩
  obtain ⟨x, ss, rfl, hx, hss⟩ := hs.exists_cons
  obtain ⟨y, tt, rfl, hy, htt⟩ := ht.exists_cons
  obtain ⟨f, W1, rfl⟩ := List.exists_cons_of_length_eq_add_one hlen
  obtain ⟨W2, l, rfl⟩ := List.eq_nil_or_concat W1 |>.resolve_left (by rintro rfl; simp at hlen)
  simp only [List.concat_eq_append] at *
  have h2 : W2.length = m := by simpa using hlen
  have f1 := hf f rfl
  have l1 := hl l (by simp [h2])
  -- the middle tensors as a function of the site
  have hg : W2 = (List.range' 1 m).map fun i => W2.getD (i - 1) l := by
    apply List.ext_getElem (by simp [h2])
    intro i h1 h3
    simp [List.getElem?_eq_getElem h1]
  have env := right_env (d := d) (K := K) (X := X) (g := fun i => W2.getD (i - 1) l) (l := l) m 1 (by
    intro i h1 h3
    apply hb i _ (by omega) (by omega)
    obtain ⟨j, rfl⟩ : ∃ j, i = j + 1 := ⟨i - 1, by omega⟩
    rw [List.getElem?_cons_succ, List.getElem?_append_left (by omega), List.getElem?_eq_getElem (by omega)]
    simp only [Nat.add_sub_cancel]
    rw [List.getD_eq_getElem _ _ (by omega)])
    (by rw [show 1 + m = m + 1 + 1 - 1 by omega]; exact l1) ss tt hss htt
  rw [← hg] at env
  obtain ⟨i1, i2, i3⟩ := env
  rw [← Nat.zero_add (m + 1)]
  have := hamRec_eq d K X (m + 1) 0 (x :: ss) (y :: tt) (by simp [hss.1]) (by simp [htt.1])
  simp only [Nat.zero_add] at this ⊢
  rw [← this]
  simp only [mchain, f1.r, sum_range_succ' (n := K + 1)]
  rw [i1, f1.h x hx y hy, sum_range_succ, i3, f1.one x hx y hy,
    sum_congr rfl fun c hc => by rw [f1.A c (mem_range.mp hc) x hx y hy, i2 c (mem_range.mp hc)]]
  simp only [hamRec, Nat.zero_add]; ring

end

end PyTeN
