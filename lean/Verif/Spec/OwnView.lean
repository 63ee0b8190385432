import Verif.Model.Py

/-! The view of a picture by the rules of Radiance: the last header line that begins with `VIEW=`. Lines that begin with
white space belong to the pictures it was made from. -/

namespace Verif.Spec
open Verif.Py

def ownView (lines : List Str) : Option Str := (lines.filter fun l => "VIEW=".toList.isPrefixOf l).getLast?

/-- the words of an angular view behind its type -/
def angularWords (l : Str) : Option (List Str) :=
  if "VIEW= -vta".toList.isPrefixOf l then some (tokens (l.drop 10)) else none

end Verif.Spec
