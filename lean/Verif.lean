import Verif.BigInt.PropsBasic
import Verif.BigInt.PropsMulDiv
import Verif.BigInt.PropsBits
import Verif.BigInt.PropsRat
import Verif.BigInt.PropsText
import Verif.Bits.Props
import Verif.Arith.PropsArith
import Verif.Arith.PropsRational
import Verif.Arith.PropsRational2
import Verif.BitMap.Props
import Verif.BitMap.Props2
import Verif.BitMap.Props3
import Verif.BitMap.Props4
import Verif.BitMap.Props5
import Verif.BitSet.Props
import Verif.BitSet.Props2
import Verif.Hash.Props
import Verif.Tally.Props
import Verif.Tally.PropsIO
import Verif.Size.Props
import Verif.Perm.Props
import Verif.Perm.Props2
import Verif.Part.Props
import Verif.Part.Orbits
import Verif.Part.IterProps
import Verif.Poly.Props
import Verif.Poly.Props2
import Verif.Poly.SafeProps
import Verif.Free.Props
import Verif.Poset.Props3
import Verif.Pre.Props
import Verif.Graph.Props
import Verif.F2.Section
import Verif.F2.Subq
import Verif.F2.Mod2Props
import Verif.Weyl.Assert
import Verif.Weyl.NF
import Verif.Weyl.Group
import Verif.Weyl.Impl
import Verif.Weyl.Iface
import Verif.Weyl.Construct
import Verif.Coxeter.Exchange
import Verif.Weyl.Props
import Verif.Coxeter.Geom
import Verif.Coxeter.Twist
import Verif.Coxeter.TwistExt
import Verif.Weyl.Twisted
import Verif.Weyl.TwistedSpec
import Verif.Weyl.TwistedImpl
import Verif.Weyl.TwistedImpl2
import Verif.Weyl.TwistedProps
import Verif.Mat.Model
import Verif.Mat.Store
import Verif.Mat.Store2
import Verif.Mat.Store3
import Verif.Mat.Props
import Verif.Mat.PropsEchelon
import Verif.Mat.PropsDiag
import Verif.Mat.PropsLattice
import Verif.Ab.Props
import Verif.BigInt.SubSign
import Verif.RatVec.Props
import Verif.Coxeter.Roots
import Verif.Root.Model
import Verif.Root.Lemmas
import Verif.Root.Gen
import Verif.Root.Gen2
import Verif.Root.Data
import Verif.Root.Perms
import Verif.Root.Perms2
import Verif.Root.Make
import Verif.Root.Count
import Verif.Root.Level
import Verif.Root.Level2
import Verif.Root.Bounds
import Verif.Root.Access
import Verif.Root.Spec
import Verif.Root.Iface
import Verif.Root.Answers
import Verif.Root.Props
import Verif.Root.Sub
import Verif.Root.Basis
import Verif.Root.Words
import Verif.Root.Extend
import Verif.Root.Access2
import Verif.Root.Neg
import Verif.Root.Comps
import Verif.Root.Long
import Verif.Root.Lookup
import Verif.Root.Indep
import Verif.Root.Orth
import Verif.Root.MaxOrth
import Verif.Root.Props2
import Verif.SL.Model
import Verif.SL.Rep
import Verif.SL.Steps
import Verif.SL.Steps2
import Verif.SL.Ops
import Verif.SL.Ops2
import Verif.SL.Ops3
import Verif.SL.Merge
import Verif.SL.Sort
import Verif.SL.Full
import Verif.SL.Full2
import Verif.SL.Full3
import Verif.SL.Full4
import Verif.SL.Spec
import Verif.SL.Witness
import Verif.SL.Props
import Verif.SL.Props2
import Verif.SL.Props3
import Verif.SL.History
import Verif.KL.Spec
import Verif.KL.Laurent
import Verif.KL.Hecke
import Verif.KL.Eigen
import Verif.KL.Recursion
import Verif.KL.Formulas
import Verif.KL.Model
import Verif.KL.Rep
import Verif.KL.Prim
import Verif.KL.Column
import Verif.KL.Complete
import Verif.KL.NewRec
import Verif.KL.Fill
import Verif.KL.Unique
import Verif.KL.Example
import Verif.KL.Props
import Verif.KL.WGraphModel
import Verif.KL.WGraph
import Verif.KL.Cells
import Verif.KL.WGraphProps
import Verif.KL.SwallowModel
import Verif.KL.Swallow
import Verif.KL.SwallowProps
import Verif.Dynkin.Model
import Verif.Dynkin.Spec
import Verif.Dynkin.Graph
import Verif.Dynkin.Scan
import Verif.Dynkin.Comps
import Verif.Dynkin.Std
import Verif.Dynkin.Loops
import Verif.Dynkin.Complete
import Verif.Dynkin.Sound
import Verif.Dynkin.Classify
import Verif.Dynkin.Recognise
import Verif.Dynkin.Entries
import Verif.Dynkin.Props
import Verif.Tits.Abstract
import Verif.Tits.Lift
import Verif.Tits.Model
import Verif.Tits.Spec
import Verif.Tits.Impl
import Verif.Tits.Make
import Verif.Tits.Props
import Verif.Tits.Delta
import Verif.Tits.CosetSpec
import Verif.Tits.Lattice
import Verif.Tits.Laws
import Verif.Tits.CosetImpl
import Verif.Tits.CosetProps
import Verif.KGB.Model
import Verif.KGB.Spec
import Verif.KGB.Gen
import Verif.KGB.Loop
import Verif.KGB.Loop2
import Verif.KGB.Sort
import Verif.KGB.Sort2
import Verif.KGB.Acc
import Verif.KGB.Props
import Verif.KGB.Exists
import Verif.Datum.Model
import Verif.Datum.Spec
import Verif.Datum.Dom
import Verif.Datum.Lat
import Verif.Datum.Make
import Verif.Datum.Acc
import Verif.Datum.Acc2
import Verif.Datum.DomCode
import Verif.Datum.Props
import Verif.Datum.Orbit
import Verif.Datum.OrbitMath
import Verif.Datum.OrbitCode
import Verif.Datum.OrbitGen
import Verif.Datum.PropsOrbit
import Verif.Inv.Model
import Verif.Inv.Spec
import Verif.Inv.Math
import Verif.Inv.Fresh
import Verif.Inv.Cayley
import Verif.Inv.Cross
import Verif.Inv.Cross2
import Verif.Inv.Table
import Verif.Inv.Orbits
import Verif.Inv.Access
import Verif.Inv.Y
import Verif.Inv.Props
import Verif.Inv.Total
import Verif.Canon.Par
import Verif.Canon.Math
import Verif.Canon.Model
import Verif.Canon.Spec
import Verif.Canon.Link
import Verif.Canon.Code
import Verif.Canon.Props
import Verif.Canon.GenModel
import Verif.Canon.GenSpec
import Verif.Canon.GenMath
import Verif.Canon.GenOne
import Verif.Canon.GenCode
import Verif.Canon.GenProps
import Verif.Canon.GenMany
import Verif.Axis.Model
import Verif.Axis.Spec
import Verif.Axis.Basic
import Verif.Axis.Unify
import Verif.Axis.Subst
import Verif.Axis.Props
import Verif.Axis.Close
import Verif.Axis.SpecialSpec
import Verif.Axis.Special
import Verif.Axis.CloseSpec
import Verif.Axis.CloseProofs
import Verif.Axis.CloseProps
import Verif.Axis.Balance
import Verif.Axis.BalanceSpec
import Verif.Axis.BalanceProps
import Verif.Axis.Tabled
import Verif.Axis.TabledSpec
import Verif.Axis.TabledEq
import Verif.Axis.TabledGroup
import Verif.Axis.TabledDefs
import Verif.Axis.TabledMerge
import Verif.Axis.TabledProps
import Verif.Lex.Names
import Verif.Lex.NamesProps
import Verif.Lex.Buffer
import Verif.Lex.BufferSpec
import Verif.Lex.BufferLemmas
import Verif.Lex.BufferProps
import Verif.Lex.Lexer
import Verif.Lex.LexerSpec
import Verif.Lex.LexerProps
import Verif.Lex.TypeVarProps
import Verif.Lex.ProgressProps
import Verif.Lex.OperatorSpec
import Verif.Lex.OperatorProps
import Verif.Lex.StartProps
import Verif.Cmd.Commands
import Verif.Cmd.CommandsSpec
import Verif.Cmd.CommandsProps
import Verif.Cmd.Run
import Verif.Cmd.RunProps
import Verif.Io.Fold
import Verif.Io.FoldSpec
import Verif.Io.FoldProps
import Verif.Io.Digits
import Verif.Io.DigitsProps
import Verif.Io.Files
import Verif.Io.FilesProps
import Verif.Io.BlockFile
import Verif.Io.BlockFileProps
import Verif.Io.MatrixFile
import Verif.Io.MatrixFileProps
import Verif.Io.Progress
import Verif.Io.ProgressProps
