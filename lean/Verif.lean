import Verif.Model.Symmetry
import Verif.Thm.Symmetry
import Verif.Thm.BondInfo
import Verif.Thm.Fusing
import Verif.Thm.Sparse
import Verif.Thm.Fuse
import Verif.Thm.Flat
import Verif.Thm.Fermion
import Verif.Thm.Expr
import Verif.Thm.Linalg
import Verif.Thm.Hamiltonian
import Verif.Thm.OpT
import Verif.Thm.Fcidump
import Verif.Thm.Heisenberg
import Verif.Thm.Gaussian
import Verif.Thm.Symbolic
import Verif.Thm.FuseMap
import Verif.Thm.Dmrg
import Verif.Thm.Mpe
import Verif.Thm.MpeSweep
import Verif.Thm.MpeLocal
import Verif.Thm.MpeCanon
import Verif.Thm.Mps
import Verif.Thm.MpsDot
import Verif.Thm.MpsProd
import Verif.Thm.MpoMul
import Verif.Proof.Ladder
import Verif.Model.Canon
import Verif.Spec.Canon
import Verif.Proof.Canon
import Verif.Thm.Canon
import Verif.Thm.CanonQR
import Verif.Model.Trunc
import Verif.Spec.Trunc
import Verif.Proof.Trunc
import Verif.Thm.Trunc
import Verif.Thm.OpTChain
import Verif.Model.Compress
import Verif.Spec.Svd
import Verif.Proof.Svd
import Verif.Proof.Compress
import Verif.Proof.ChainIp
import Verif.Proof.CompressFwd
import Verif.Proof.CompressBwd
import Verif.Thm.Compress
import Verif.Thm.CompressSvd
import Verif.Model.TrimSvd
import Verif.Spec.TrimSvd
import Verif.Proof.TrimSvd
import Verif.Thm.TrimSvd
import Verif.Model.FermiOps
import Verif.Spec.Fock
import Verif.Spec.FermiOps
import Verif.Thm.FermiOps
import Verif.Thm.FermiOpsAct
import Verif.Model.Constructor
import Verif.Spec.Constructor
import Verif.Thm.Constructor
import Verif.Model.Einsum
import Verif.Spec.Einsum
import Verif.Thm.Einsum
import Verif.Model.FermSvd
import Verif.Spec.FermSvd
import Verif.Proof.FermSvd
import Verif.Thm.FermSvd
import Verif.Proof.FermTrunc
import Verif.Thm.FermTrunc
import Verif.Thm.FermSvdContract
import Verif.Model.BuildMpo
import Verif.Spec.BuildMpo
import Verif.Proof.BuildMpo
import Verif.Proof.BuildMpoCollect
import Verif.Proof.BuildMpoSvd
import Verif.Proof.BuildMpoStep
import Verif.Thm.BuildMpo
import Verif.Model.SiteOps
import Verif.Spec.QcMpo
import Verif.Proof.SiteOps
import Verif.Proof.Fock
import Verif.Proof.QcMpoSite
import Verif.Proof.QcMpoChain
import Verif.Thm.QcMpo
import Verif.Model.ConvMpo
import Verif.Spec.ConvMpo
import Verif.Proof.CellChain
import Verif.Proof.ConvAlg
import Verif.Proof.ConvPos
import Verif.Proof.ConvSite
import Verif.Proof.ConvChain
import Verif.Proof.ConvEnts
import Verif.Proof.ConvCells
import Verif.Thm.ConvMpo
import Verif.Spec.FockMps
import Verif.Proof.ApplyEven
import Verif.Thm.FockMps
import Verif.Model.SiteMpo
import Verif.Spec.SiteMpo
import Verif.Proof.SiteMpo
import Verif.Thm.SiteMpo
import Verif.Spec.Davidson
import Verif.Proof.DavidsonFamily
import Verif.Proof.DavidsonRitz
import Verif.Proof.DavidsonLoop
import Verif.Thm.DavidsonVar
import Verif.Model.TensorSvd
import Verif.Spec.TensorSvd
import Verif.Proof.TensorSvd
import Verif.Thm.TensorSvd
import Verif.Model.Decomp
import Verif.Spec.Decomp
import Verif.Proof.DensityMatrix
import Verif.Proof.Decomp
import Verif.Thm.Decomp
import Verif.Spec.DmrgStep
import Verif.Proof.DmrgUnit
import Verif.Proof.DmrgWindow
import Verif.Proof.DmrgStep
import Verif.Thm.DmrgStep
import Verif.Model.Green
import Verif.Thm.Green
import Verif.Model.TimeStep
import Verif.Thm.TimeStep
import Verif.Model.Linear
import Verif.Spec.Linear
import Verif.Proof.LinearRun
import Verif.Proof.LinearStep
import Verif.Thm.Linear
import Verif.Thm.LinearRun
import Verif.Model.Functor
import Verif.Spec.Functor
import Verif.Proof.Functor
import Verif.Proof.FunctorLegs
import Verif.Proof.FunctorProd
import Verif.Proof.FunctorNew
import Verif.Thm.Functor
import Verif.Model.MpsInfo
import Verif.Spec.MpsInfo
import Verif.Proof.MpsInfo
import Verif.Proof.MpsInfoState
import Verif.Proof.MpsInfoExact
import Verif.Thm.MpsInfo
import Verif.Model.FlatCanon
import Verif.Spec.FlatCanon
import Verif.Proof.FlatCanon
import Verif.Proof.FlatFactor
import Verif.Thm.FlatCanon
import Verif.Model.FlatKron
import Verif.Proof.FlatKron
import Verif.Thm.FlatKron
import Verif.Model.HeisenbergMpo
import Verif.Spec.HeisenbergMpo
import Verif.Proof.HeisenbergMpoSite
import Verif.Proof.HeisenbergMpoChain
import Verif.Thm.HeisenbergMpo
import Verif.Model.Simplify
import Verif.Spec.Simplify
import Verif.Proof.Simplify
import Verif.Proof.SimplifyChain
import Verif.Proof.SimplifyCells
import Verif.Proof.SimplifyConv
import Verif.Thm.Simplify
import Verif.Model.Sliceable
import Verif.Spec.Sliceable
import Verif.Proof.Sliceable
import Verif.Proof.SliceableChain
import Verif.Proof.SliceableMps
import Verif.Thm.Sliceable
import Verif.Model.FermTrace
import Verif.Spec.FermTrace
import Verif.Proof.FermTrace
import Verif.Proof.FermTrace2
import Verif.Proof.FermTraceDot
import Verif.Proof.FermTraceOrder
import Verif.Thm.FermTrace
import Verif.Model.SymmFuse
import Verif.Spec.SymmFuse
import Verif.Proof.SymmFuse
import Verif.Proof.SymmDot
import Verif.Proof.SymmMps
import Verif.Thm.SymmFuse
import Verif.Model.Entangle
import Verif.Spec.Entangle
import Verif.Proof.Schmidt
import Verif.Proof.Entangle
import Verif.Thm.Entangle
import Verif.Model.FermAdd
import Verif.Spec.FermAdd
import Verif.Thm.FermAdd
import Verif.Model.FlatFermTrace
import Verif.Proof.FlatFermTrace
import Verif.Thm.FlatFermTrace
import Verif.Model.FermPhase
import Verif.Proof.FermPhase
import Verif.Thm.FermPhase
import Verif.Model.FlatFermDot
import Verif.Proof.FlatFermDot
import Verif.Thm.FlatFermDot
import Verif.Model.Precond
import Verif.Thm.Precond
import Verif.Model.NormAxis
import Verif.Spec.NormAxis
import Verif.Thm.NormAxis
import Verif.Model.Ancilla
import Verif.Spec.Ancilla
import Verif.Thm.Ancilla
import Verif.Model.BondDim
import Verif.Spec.BondDim
import Verif.Thm.BondDim
import Verif.Model.OpCanon
import Verif.Proof.OpCanon
import Verif.Proof.OpCanonRight
import Verif.Thm.OpCanon
import Verif.Model.OpSvd
import Verif.Thm.OpSvd
import Verif.Thm.OpSvdIso
