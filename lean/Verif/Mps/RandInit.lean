import Verif.Mps.Ops

/-! # Random initial tensors -/

namespace PyTeN.RandInit

noncomputable section

/-- `MPSinit(length,D,d,obc,dtype,scale,shift)`, lib/mpslib/mpsfunctions.py:587-598: the argument `dtype` is not passed on.  `gen k` is what the
`k`-th call of `np.random.random_sample` returns. -/
def mpsInit (gen : ℕ → ℕ → ℕ → ℕ → ℂ) (length D : ℕ) (d : LocDim) (obc : Bool) (_dtype : DType) (scale shift : ℝ) : Res (List (Ten ℂ)) :=
  mpsInitializer gen length D d obc .float scale shift

end

end PyTeN.RandInit
