import Verif.Props.Poly
import Verif.Props.Matrix
import Verif.Props.Permutations
import Verif.Props.Braid
import Verif.Props.Polymat
import Verif.Props.Burau

import Verif.Props.Bucketing
import Verif.Props.BraidSearch
import Verif.Props.Rep
import Verif.Props.Descend
import Verif.Props.Search
import Verif.Props.SearchComplete
import Verif.Props.TL
import Verif.Props.TLAlgebra
import Verif.Props.Jones
import Verif.Props.LKB
import Verif.Props.NPar
import Verif.Props.DGNF
import Verif.Props.Adapter
import Verif.Props.BucketSearch
import Verif.Props.DualEval
import Verif.Props.Display
import Verif.Props.DisplayNF
import Verif.Props.BucketProduct
import Verif.Props.SearchMisc
import Verif.Props.BucketStats
import Verif.Props.PolymatWord
import Verif.Props.LKBEval
import Verif.Props.Markov
import Verif.Props.SearchDb
import Verif.Props.TLBasis
import Verif.Props.Printing
import Verif.Props.PrintNPar
import Verif.Props.PrintMatrix
import Verif.Props.TLDraw
import Verif.Props.Sampling
import Verif.Props.Show
import Verif.Props.ShowMor
import Verif.Props.RepMisc
import Verif.Props.Misc
import Verif.Props.BurauKernel
import Verif.Props.GnfPair
import Verif.Props.Unfaithful
import Verif.Props.ThreeStrands
import Verif.Props.JonesObject
import Verif.Props.CellNear
import Verif.Props.BurauMatrices
import Verif.Props.WordForm
import Verif.Props.Magma
import Verif.Props.BurauPowers
import Verif.Props.ReservoirChance
import Verif.Props.SearchChance
import Verif.Props.Heap
import Verif.Props.SymGroup
import Verif.Props.MatrixVec
import Verif.Props.MachineEval
import Verif.Props.MachineSearch
import Verif.Props.MachineBucket
import Verif.Props.MachineDual
import Verif.Props.MachineSearchInt
import Verif.Props.MachineLKB
import Verif.Props.LKBTracker
import Verif.Props.SearchText
import Verif.Props.SearchProgram
import Verif.Props.NFMisc
import Verif.Props.SearchRepro
import Verif.Props.BraidOrder
import Verif.Props.Plots
import Verif.Props.CountGrowth
