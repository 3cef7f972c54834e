import Verif.Model.Files
/-
Specification: what is expected of the operating system and of temporary files.
-/
namespace Goexpdt.Spec

/-- `os.CreateTemp` never takes a path that is in use. -/
def Exclusive (os : OS) : Prop := ∀ fs p, os.temp fs = .ok p → p ∉ fs.paths

/-- The files that were there have the content that they had. -/
def Intact (fs fs' : FS) : Prop := ∀ p ∈ fs.paths, fs'.read p = fs.read p

end Goexpdt.Spec
