import Verif.Props.Offer
import Verif.Model.RunLine
/-! C87: the texts that completion shows, written out. C90: the kinds of the items of a batch. -/
namespace Verif.Offer
open Verif

/-- The text shown beside a name: the name, what it is, and its help in a block of code. -/
def docText (name kind help : Text) : Text :=
  "`".toList ++ name ++ "` [_".toList ++ kind ++ "_]\n\n```\n".toList ++ help ++ "\n```".toList

/-- C87: what is shown beside a command. -/
theorem command_text {W : Wsp} {n : String} {x : Def} (h : SaysCommand W n x) :
    ∃ ks sh, AMap.get W.defs.impls n = some ks ∧ Help.all (W.order (Help.entries W.msg ks)) = some (some sh) ∧
      x.name = n.toList ∧ x.kind = .impl ∧ x.doc = some (docText n.toList "command".toList (W.print sh)) := by
  obtain ⟨ks, sh, h1, h2, rfl⟩ := h
  exact ⟨ks, sh, h1, h2, rfl, rfl, by simp [docText, addBody, docHeader, kindText]⟩

/-- C87: what is shown beside a type. -/
theorem type_text {W : Wsp} {n : String} {x : Def} (h : SaysType W n x) :
    ∃ e sh, AMap.get W.defs.types n = some e ∧ Help.all [(none, W.tyMsg e)] = some (some sh) ∧
      x.name = n.toList ∧ x.kind = .type ∧ x.doc = some (docText n.toList "type".toList (W.print sh)) := by
  obtain ⟨e, sh, h1, h2, rfl⟩ := h
  exact ⟨e, sh, h1, h2, rfl, rfl, by simp [docText, addBody, docHeader, kindText]⟩

/-- C87: where literals are expected, those of the language are offered, each once and with what it means; where paths
are expected, the entries of the directory the line names, and nothing else. A line that reads well gets no offer. -/
theorem others_offered (k : Parse.Env) {W : Wsp} {o : Orders} {checked : Bool} {os : List Defs.Op}
    (h : Defs.run checked Defs.base os = some W.defs) (hr : Real W o) (dir : Text → List (Text × Bool)) (line : Text) :
    (∃ ds, cmpls W o (some dir) line { impls := false, types := false, paths := false, speclits := true } = some ds ∧ ds.map (fun d => (d.name, d.doc)) =
      [("#t".toList, some "`true` boolean value".toList), ("#f".toList, some "`false` boolean value".toList),
       ("#i".toList, some "the block's input value".toList)]) ∧
    (∃ ds, cmpls W o (some dir) line { impls := false, types := false, paths := true, speclits := false } = some ds ∧
      ds.map (·.name) = (dir (LsText.pathComponent line)).map (·.1)) ∧
    (ParseErr.completions k line = some none → get k W o (some dir) line = some none) := by
  refine ⟨?_, ?_, ?_⟩
  · obtain ⟨cs, ts, _, _, e⟩ := all_asked h hr (some dir) line { impls := false, types := false, paths := false, speclits := true }
    exact ⟨_, e, by simp [literals]⟩
  · obtain ⟨cs, ts, _, _, e⟩ := all_asked h hr (some dir) line { impls := false, types := false, paths := true, speclits := false }
    exact ⟨_, e, by simp [pathsIn, paths, Function.comp_def]⟩
  · intro hc; simp [get, hc, offered]

/-- With the commands and types that are built in, in a directory with two entries. -/
example : ∃ ds, cmpls (wsp Defs.base) (orders Defs.base) (some fun _ => [("a".toList, true), ("b.csv".toList, false)]) "open ".toList
      { impls := false, types := false, paths := true, speclits := false } = some ds ∧
    ds.map (·.name) = ["a".toList, "b.csv".toList] :=
  (others_offered Lang.asciiEnv (checked := false) (os := []) rfl (wsp_real Defs.base) _ _).2.1

end Verif.Offer

namespace Verif.RunLine

/-- C90: the items that are types, commands and expressions in the file are treated as such. -/
theorem kinds_kept {D E : Type} (b : File.Batch) (pd : D → File.BatchItem → D × Option E) (pe : D → File.BatchItem → Option E)
    (i : File.BatchItem) :
    ((cfg b pd pe).kind i = .type ↔ i.kind = .type_) ∧ ((cfg b pd pe).kind i = .impl ↔ i.kind = .impl) ∧
    ((cfg b pd pe).kind i = .expr ↔ i.kind = .expr) := by
  cases h : i.kind <;> simp [cfg, kindOf, h]

end Verif.RunLine
