import Verif.Mps.Norm
import Verif.Mps.Oracle

/-! # A concrete entangled state used to show that hypotheses are satisfiable -/

namespace PyTeN
open Finset

noncomputable section

/-- site tensors of the three-site state `|000> + |111>` with bond dimension 2. -/
def ghzT : List (Ten ℂ) :=
  [⟨1, 2, 2, fun _ j s => delta ℂ j s⟩,
   ⟨2, 2, 2, fun i j s => delta ℂ i j * delta ℂ j s⟩,
   ⟨2, 1, 2, fun i _ s => delta ℂ i s⟩]

/-- the state `|000> + |111>` as an (unnormalised, not yet canonical) MPS object. -/
def ghz : MPS :=
  { N := 3, Dmax := 2, obc := true, sth := 1e-16, rth := 1e-14, tensors := ghzT
    mat := ⟨1, 1, fun _ _ => 1⟩, conn := ⟨1, 1, fun _ _ => 1⟩, pos := 3, Z := 1 }

theorem ghz_wf : ghz.WF 1 1 := by
  refine ⟨rfl, le_rfl, ?_, ?_⟩ <;> simp [ghz, ghzT, Linked]

theorem ghz_cfg (a b c : ℕ) (ha : a < 2) (hb : b < 2) (hc : c < 2) : Cfg ghz.tensors [a, b, c] :=
  List.Forall₂.cons ha (List.Forall₂.cons hb (List.Forall₂.cons hc List.Forall₂.nil))

theorem ghz_amp (a b c : ℕ) (_ : a < 2) (_ : b < 2) (_ : c < 2) :
    ghz.amp [a, b, c] 0 0 = if a = b ∧ b = c then 1 else 0 := by
  simp only [MPS.amp, ghz, ghzT, List.take, List.drop, chain, sum_range_succ, range_zero, sum_empty]
  simp only [delta]
  split_ifs <;> first | omega | simp_all

end

end PyTeN
