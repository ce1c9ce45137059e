import Verif.AtomicProj.Model
import Verif.AtomicProj.Props
import Verif.AtomicProj.Read
import Verif.Bands.Dispersion
import Verif.Bands.Full
import Verif.Bands.Model
import Verif.Bands.Props
import Verif.Bands.Robust
import Verif.Bands.Shared
import Verif.Bands.Unfold
import Verif.Bands.Weyl
import Verif.Bravais.GMKG
import Verif.Bravais.GMKGDensity
import Verif.Bravais.Labels
import Verif.Bravais.Mesh
import Verif.Bravais.Model
import Verif.Bravais.Path
import Verif.Bravais.Props
import Verif.Coupling.Model
import Verif.Coupling.Props
import Verif.DOS.A2F
import Verif.DOS.DoubleDelta
import Verif.DOS.Isoline
import Verif.DOS.IsolineMesh
import Verif.DOS.Model
import Verif.DOS.Props
import Verif.Diag.Derivatives
import Verif.Diag.Dynamic
import Verif.Diag.Gauge
import Verif.Diag.Matsubara
import Verif.Diag.Mesh
import Verif.Diag.Model
import Verif.Diag.Nonadiabatic
import Verif.Diag.Orbital
import Verif.Diag.Potential
import Verif.Diag.Result
import Verif.Diag.Screening
import Verif.Diag.SelfEnergy
import Verif.Diag.Supercell
import Verif.Diag.SupercellMesh
import Verif.Diag.SupercellProps
import Verif.Diag.Symmetry
import Verif.Diag.SymmetryMore
import Verif.Diag.Triangle
import Verif.ElEl.Hartree
import Verif.ElEl.Init
import Verif.ElEl.Orbital2Band
import Verif.ElInit.Model
import Verif.ElInit.Props
import Verif.ElInit.Save
import Verif.ElInit.Wannier
import Verif.ElPh.Clear
import Verif.ElPh.Froehlich
import Verif.ElPh.FroehlichPlane
import Verif.ElPh.LongRange
import Verif.ElPh.Model
import Verif.ElPh.Parallel
import Verif.ElPh.Ph2epw
import Verif.ElPh.Props
import Verif.ElPh.Range
import Verif.ElPh.Supercell
import Verif.ElPh.SupercellLR
import Verif.ElPh.Transform
import Verif.Eliashberg.Model
import Verif.Eliashberg.Props
import Verif.Epw.Model
import Verif.Epw.Props
import Verif.Fourier.Check
import Verif.Fourier.Exact
import Verif.Fourier.Lemmas
import Verif.Fourier.Model
import Verif.Fourier.Props
import Verif.Fourier.Symmetry
import Verif.Fourier.SymmetryCheck
import Verif.Fourier.SymmetryElph
import Verif.Interp.Lemmas
import Verif.Interp.Model
import Verif.Interp.Props
import Verif.Lattice.Lemmas
import Verif.Lattice.Model
import Verif.Lattice.Props
import Verif.MD.Bounds
import Verif.MD.Call
import Verif.MD.Density
import Verif.MD.Differentiable
import Verif.MD.Ground
import Verif.MD.Model
import Verif.MD.Models
import Verif.MD.Motion
import Verif.MD.Optimize
import Verif.MD.Order
import Verif.MD.Photo
import Verif.MD.Props
import Verif.MD.Relax
import Verif.MD.Repeat
import Verif.MD.RepeatInit
import Verif.MD.RepeatSupercond
import Verif.MD.Save
import Verif.MD.SparseSupercond
import Verif.MD.Spectral
import Verif.MD.Supercond
import Verif.MD.Symmetry
import Verif.MD.Thermo
import Verif.MD.Tolerance
import Verif.MD.Translation
import Verif.MD.Warm
import Verif.MD.Wave
import Verif.MPI.Calls
import Verif.MPI.Collective
import Verif.MPI.Exchange
import Verif.MPI.Lemmas
import Verif.MPI.Model
import Verif.MPI.Props
import Verif.Mesh.CompleteK
import Verif.Mesh.Lemmas
import Verif.Mesh.Model
import Verif.Mesh.Props
import Verif.Mesh.Symmetries
import Verif.Misc.Lemmas
import Verif.Misc.Model
import Verif.Misc.Props
import Verif.Misc.Xsf
import Verif.Models.Chain
import Verif.Models.Create
import Verif.Models.CreateTaS2
import Verif.Models.Graphene
import Verif.Models.GrapheneRotation
import Verif.Models.TaS2
import Verif.Occ.Bose
import Verif.Occ.Deriv
import Verif.Occ.Fermi
import Verif.Occ.Guard
import Verif.Occ.Model
import Verif.Occ.Step
import Verif.Phon.Acoustic
import Verif.Phon.Alias
import Verif.Phon.BornHuang
import Verif.Phon.Cost
import Verif.Phon.Decay
import Verif.Phon.FlfrcXml
import Verif.Phon.GramSchmidt
import Verif.Phon.Init
import Verif.Phon.Interpolate
import Verif.Phon.Irreducible
import Verif.Phon.Kernel
import Verif.Phon.LongRange
import Verif.Phon.Model
import Verif.Phon.RuleSymmetry
import Verif.Phon.RuleSymmetryCheck
import Verif.Phon.Screened
import Verif.Phon.SelfTerm
import Verif.Phon.Sequence
import Verif.Phon.Spectral
import Verif.Phon.Splitting
import Verif.Phon.SplittingCheck
import Verif.Phon.SplittingLimits
import Verif.Phon.SplittingPlane
import Verif.Phon.SumRules
import Verif.Phon.SupercellLR
import Verif.Phon.ToFlfrc
import Verif.Phon.ToPwi
import Verif.Phon.Vectors
import Verif.Plot.Arrange
import Verif.Plot.BZ
import Verif.Plot.Colorbar
import Verif.Plot.Compline
import Verif.Plot.Image
import Verif.Plot.Outline
import Verif.Plot.Plane
import Verif.Proj.Out
import Verif.Proj.Sum
import Verif.Pwo.Eps
import Verif.Pwo.Lemmas
import Verif.Pwo.Model
import Verif.Pwo.Output
import Verif.Pwo.Props
import Verif.Readers.Model
import Verif.Readers.Poscar
import Verif.Readers.Props
import Verif.Split.Model
import Verif.Split.Props
import Verif.Stack.Model
import Verif.Stack.Props
import Verif.TB.Empty
import Verif.TB.Lemmas
import Verif.TB.Model
import Verif.TB.Sequence
import Verif.TB.Spectrum
import Verif.TB.Standardize
import Verif.TB.Supercell
import Verif.Text.ArrayFile
import Verif.Text.BandFile
import Verif.Text.Binary
import Verif.Text.Dyn
import Verif.Text.Epmatwp
import Verif.Text.Flfrc
import Verif.Text.Formats
import Verif.Text.HrDat
import Verif.Text.InputProps
import Verif.Text.Inputs
import Verif.Text.Lemmas
import Verif.Text.Matdyn
import Verif.Text.Model
import Verif.Text.Namelist
import Verif.Text.NamelistRead
import Verif.Text.Pwi
import Verif.Text.PwiCards
import Verif.Text.PwiProps
import Verif.Text.PwiRead
import Verif.Text.Small
import Verif.Text.Wigner
import Verif.Text.Win
import Verif.Text.WinProps
import Verif.Text.Wmat
import Verif.Voronoi.Lemmas
import Verif.Voronoi.Model
import Verif.Voronoi.Props
import Verif.Xml.Model
import Verif.Xml.Props
import Verif.Xml.Read
