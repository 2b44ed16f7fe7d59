import Verif.Alloc.Classes
import Verif.Alloc.ObjTheorems
import Verif.Alloc.Objects
import Verif.Alloc.Page
import Verif.Async.Queue
import Verif.Async.Sig
import Verif.Bag.Model
import Verif.Bag.Props
import Verif.Bytecode.Agree
import Verif.Bytecode.Decode
import Verif.Bytecode.Layout
import Verif.Bytecode.Peephole
import Verif.Bytecode.Superop
import Verif.Bytecode.Syntax
import Verif.Bytecode.Tables
import Verif.CInt.Limits
import Verif.CInt.Model
import Verif.CInt.Props
import Verif.CStruct.Model
import Verif.CStruct.Props
import Verif.Calendar.Date
import Verif.Calendar.DateTheorems
import Verif.Calendar.DateTime
import Verif.Calendar.Text
import Verif.Callout.Model
import Verif.Callout.Props
import Verif.Callout.Values
import Verif.Compiler.Backward
import Verif.Compiler.Depth
import Verif.Compiler.Forward
import Verif.Compiler.Lemmas
import Verif.Compiler.Model
import Verif.Compiler.Safety
import Verif.Compiler.Scope
import Verif.Compiler.Spec
import Verif.Compiler.Theorems
import Verif.Digest.Block
import Verif.Digest.Code
import Verif.Digest.Feed
import Verif.Digest.Finish
import Verif.Digest.Messages
import Verif.Digest.Props
import Verif.Digest.Rfc
import Verif.Digest.Sine
import Verif.Dumper.Bytes
import Verif.Dumper.Ends
import Verif.Dumper.Fuel
import Verif.Dumper.Graph
import Verif.Dumper.Loads
import Verif.Dumper.Model
import Verif.Dumper.Spec
import Verif.Dumper.Theorems
import Verif.Dumper.Witness
import Verif.Enums.Model
import Verif.Enums.Props
import Verif.Files.Legal
import Verif.Files.Model
import Verif.Files.Props
import Verif.Files.Reads
import Verif.Files.Sim
import Verif.Files.Writes
import Verif.Floats.Digits
import Verif.Floats.Model
import Verif.Floats.Near
import Verif.Floats.Props
import Verif.Floats.Result
import Verif.Floats.Text
import Verif.Frac.Arith
import Verif.Frac.Float
import Verif.Frac.Model
import Verif.Frac.Scaled
import Verif.Frac.Theorems
import Verif.GC.MarkLemmas
import Verif.GC.MarkMain
import Verif.GC.MarkModel
import Verif.GC.MarkRounds
import Verif.GC.MarkSpec
import Verif.GC.MarkTheorems
import Verif.GC.TableLemmas
import Verif.GC.TableModel
import Verif.GC.TableOps
import Verif.GC.TableSpec
import Verif.GC.TableTheorems
import Verif.Generator.Model
import Verif.Generator.Props
import Verif.Getopt.Lines
import Verif.Getopt.Model
import Verif.Getopt.Proofs
import Verif.Getopt.Props
import Verif.Handlers.Lemmas
import Verif.Handlers.Model
import Verif.Handlers.Theorems
import Verif.Hash.Probe
import Verif.Hash.Remove
import Verif.HashColl.Bag
import Verif.HashColl.Compare
import Verif.HashColl.Lemmas
import Verif.HashColl.Lookup
import Verif.HashColl.Model
import Verif.HashColl.Props
import Verif.Index.Accept
import Verif.Index.Lemmas
import Verif.Index.Model
import Verif.Index.Props
import Verif.Interrupts.Nesting
import Verif.Interval.Model
import Verif.Interval.Theorems
import Verif.Lexer.Append
import Verif.Lexer.Bytes
import Verif.Lexer.Digits
import Verif.Lexer.Model
import Verif.Lexer.Store
import Verif.Lexer.Theorems
import Verif.Links.Model
import Verif.Links.Props
import Verif.Lookup.Model
import Verif.Lookup.Proofs
import Verif.Lookup.Spec
import Verif.Lookup.Theorems
import Verif.Mapped.Model
import Verif.Mapped.Props
import Verif.Mpz.Arith
import Verif.Mpz.Bits
import Verif.Mpz.Div
import Verif.Mpz.Float
import Verif.Mpz.Limbs
import Verif.Mpz.Model
import Verif.Mpz.Object
import Verif.Mpz.Prims
import Verif.Mpz.Theorems
import Verif.Ntop.Model
import Verif.Ntop.Props
import Verif.Num.Fact
import Verif.Num.Gcd
import Verif.Num.Model
import Verif.Num.Power
import Verif.Num.Print
import Verif.OrdColl.Model
import Verif.OrdColl.Proofs
import Verif.OrdColl.Spec
import Verif.OrdColl.Theorems
import Verif.Packages.Model
import Verif.Packages.Props
import Verif.Parser.Complete
import Verif.Parser.Complete2
import Verif.Parser.Methods
import Verif.Parser.Model
import Verif.Parser.Nest
import Verif.Parser.Sound
import Verif.Parser.Sound2
import Verif.Parser.Sound3
import Verif.Parser.Spec
import Verif.Parser.Theorems
import Verif.Parser.Totality
import Verif.Paths.Model
import Verif.Paths.Proofs
import Verif.Paths.Props
import Verif.Pools.Model
import Verif.Pools.Proofs
import Verif.Pools.Props
import Verif.ProcVars.Model
import Verif.ProcVars.Props
import Verif.PtrSet.Model
import Verif.PtrSet.Props
import Verif.Random.Model
import Verif.Random.Props
import Verif.Reals.Arith
import Verif.Reals.Div
import Verif.Reals.Limbs
import Verif.Reals.Literal
import Verif.Reals.Model
import Verif.Reals.Mul
import Verif.Reals.Props
import Verif.Reals.Round
import Verif.Rects.Model
import Verif.Rects.Props
import Verif.Reshape.Model
import Verif.Reshape.Props
import Verif.RunArray.Model
import Verif.RunArray.Theorems
import Verif.Save.Buffer
import Verif.Save.Lists
import Verif.Save.Load
import Verif.Save.Model
import Verif.Save.Session
import Verif.Save.Theorems
import Verif.Save.Witness
import Verif.Save.Words
import Verif.Scavenge.Greys
import Verif.Scavenge.Inv
import Verif.Scavenge.Model
import Verif.Scavenge.Ring
import Verif.Scavenge.Scan
import Verif.Scavenge.Spec
import Verif.Scavenge.Steps
import Verif.Scavenge.Theorems
import Verif.Scavenge.Whole
import Verif.Sched.Inv
import Verif.Sched.Lost
import Verif.Sched.Model
import Verif.Sched.Props
import Verif.Sched.Refine
import Verif.Sched.Refine2
import Verif.Sched.Semaphores
import Verif.Sched.Spec
import Verif.SmallInt.Bits
import Verif.SmallInt.Lemmas
import Verif.SmallInt.Model
import Verif.SmallInt.Props
import Verif.SmallInt.Props2
import Verif.SmallInt.Props3
import Verif.SmallInt.Spec
import Verif.SortColl.Heap
import Verif.SortColl.Merge
import Verif.SortColl.Model
import Verif.SortColl.Props
import Verif.SortColl.Search
import Verif.SortColl.Seg
import Verif.SortColl.Sort
import Verif.SortColl.Spec
import Verif.SortColl.Theorems
import Verif.Spell.Model
import Verif.Spell.Props
import Verif.Stream.Lemmas
import Verif.Stream.Model
import Verif.Stream.Search
import Verif.Stream.SearchTheorems
import Verif.Stream.Spec
import Verif.Stream.Theorems
import Verif.StreamOps.Model
import Verif.StreamOps.Props
import Verif.Strings.Find
import Verif.Strings.Kmp
import Verif.Strings.Model
import Verif.Strings.Pattern
import Verif.Strings.Props
import Verif.Strings.Split
import Verif.Strings.Text
import Verif.Strtoul.Model
import Verif.Strtoul.Props
import Verif.Symbols.Model
import Verif.Symbols.Names
import Verif.Symbols.Theorems
import Verif.Trees.AVL
import Verif.Trees.AVLProofs
import Verif.Trees.AVLRotate
import Verif.Trees.CFunc
import Verif.Trees.Heap
import Verif.Trees.RB
import Verif.Trees.RBErase
import Verif.Trees.RBInsert
import Verif.Trees.RBOps
import Verif.Trees.Registry
import Verif.Trees.RegistryProofs
import Verif.Trees.RegistryTheorems
import Verif.Trees.Rotate
import Verif.Trees.Search
import Verif.Trees.Walk
import Verif.Unwind.Lemmas
import Verif.Unwind.Model
import Verif.Unwind.Theorems
import Verif.Url.Model
import Verif.Url.Proofs
import Verif.Url.Props
import Verif.Utf.Model
import Verif.Utf.Round
import Verif.Utf.Steps
import Verif.Utf.Theorems
import Verif.VMDict.Lemmas
import Verif.VMDict.Model
import Verif.VMDict.Props
import Verif.Verifier.Flow
import Verif.Verifier.Model
import Verif.Verifier.Proofs
import Verif.Verifier.Spec
import Verif.Verifier.Theorems
import Verif.Waits.Critical
import Verif.Waits.Delay
import Verif.Waits.Queue
import Verif.Waits.Recursion
import Verif.Waits.Shared
import Verif.Waits.Timer
import Verif.Weak.Model
import Verif.Weak.Props
