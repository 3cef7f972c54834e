import Verif.Model.Query
/-
Model of /repo/query/internal/test/auxvar.go: the generators of names of auxiliary variables that the
tests of the library use.
-/
namespace Goexpdt

/-- query/internal/test/auxvar.go:5 `sep`. -/
def RS : Char := Char.ofNat 30

/-- The comparison `s1 < s2` of Go strings, here of lists of characters: lexicographic (for UTF-8
strings the order of bytes is the order of code points). -/
def strLt : List Char → List Char → Bool
  | [], [] => false
  | [], _ :: _ => true
  | _ :: _, [] => false
  | a :: as, b :: bs => if a.toNat < b.toNat then true else if b.toNat < a.toNat then false else strLt as bs

/-- query/internal/test/auxvar.go:9-11 `VarGenBotCount`. -/
def VarGenBotCount (v : QVar) : QVar := ['b', 'o', 't', 'c'] ++ [RS] ++ v

/-- query/internal/test/auxvar.go:15-17 `VarGenNodeReach`. -/
def VarGenNodeReach (v : QVar) : QVar := ['r', 'e', 'a', 'c', 'h'] ++ [RS] ++ v

/-- query/internal/test/auxvar.go:22-27 `VarGenHammingDistance`. -/
def VarGenHammingDistance (v1 v2 : QVar) : QVar :=
  if strLt v1 v2 then ['h', 'd', 'i', 's', 't'] ++ [RS] ++ v1 ++ [RS] ++ v2
  else ['h', 'd', 'i', 's', 't'] ++ [RS] ++ v2 ++ [RS] ++ v1

/-- query/internal/test/auxvar.go:32-37 `VarGenEqualFeat`. -/
def VarGenEqualFeat (v1 v2 : QVar) : QVar :=
  if strLt v1 v2 then ['e', 'q', 'f'] ++ [RS] ++ v1 ++ [RS] ++ v2
  else ['e', 'q', 'f'] ++ [RS] ++ v2 ++ [RS] ++ v1

/-- query/internal/test/auxvar.go:42-46 `VarGenFeaturePreference`. -/
def VarGenFeaturePreference (p v1 v2 : QVar) : QVar :=
  ['f', 'p'] ++ [RS] ++ p ++ [RS] ++ v1 ++ [RS] ++ v2

end Goexpdt
