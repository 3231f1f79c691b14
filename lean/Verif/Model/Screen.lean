import Verif.Model.Shell
/-! Model of what is drawn of the outputs of the shell (`ogma-shell/interface/outputs.rs:62-68`, `:89-111`). -/
namespace Verif.Screen
open Verif.Shell

/-- `outputs.rs:62-68` `as_paragraph`: the rows of all outputs, the latest output first. `draw` gives the rows of a text
(`convert_coloured_str`, C94). -/
def paragraph {R : Type} (draw : List Char → List R) (o : Outputs) : List R := o.items.reverse.flatMap fun p => draw p.1

/-- `outputs.rs:67`, `:104`: the rows drawn in an area of `n` rows. That a paragraph with an offset is drawn from this row
on, as far as there is place, is what the crate `tui` does. -/
def shown {R : Type} (draw : List Char → List R) (o : Outputs) (n : Nat) : List R := ((paragraph draw o).drop o.scroll).take n

end Verif.Screen
