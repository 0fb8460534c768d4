import Verif.Model.Grid
import Verif.Spec.Register

/-! Histories of calls on a `Grid` object (driver for the model of `grid.py`). -/

namespace Lasy
open Spec

/-- run one method of the model and package its outcome -/
noncomputable def Grid.call {s : Shape} (g : Grid s) : Call → Answer s × Grid s
  | .setTemporal a =>
      match Grid.setTemporalField a g with
      | (.ok _, g') => (.done, g')
      | (.error e, g') => (.exception e, g')
  | .setSpectral a =>
      match Grid.setSpectralField a g with
      | (.ok _, g') => (.done, g')
      | (.error e, g') => (.exception e, g')
  | .getTemporal =>
      match Grid.getTemporalField g with
      | (.ok a, g') => (.array a, g')
      | (.error e, g') => (.exception e, g')
  | .getSpectral =>
      match Grid.getSpectralField g with
      | (.ok a, g') => (.array a, g')
      | (.error e, g') => (.exception e, g')

/-- the object after a history of calls (exceptions are caught by the caller) -/
noncomputable def Grid.after {s : Shape} (g : Grid s) : List Call → Grid s
  | [] => g
  | c :: cs => (g.call c).2.after cs

/-- the answers to a history of calls -/
noncomputable def Grid.answers {s : Shape} (g : Grid s) : List Call → List (Answer s)
  | [] => []
  | c :: cs => (g.call c).1 :: (g.call c).2.answers cs

end Lasy
