import Verif.Model.Decoder
import Verif.Spec
/-!
# Specification: reading all sections of a patch and writing them back
-/
namespace Smdiff.Spec

/-- Calling the iterator `next` until it says `None` gives exactly the sections `ss`, none of them an
error. -/
inductive Delivers
    (next : SectionIterator → Option (Outcome (List Op × SectionHeader)) × SectionIterator) :
    SectionIterator → List (List Op × SectionHeader) → Prop
  | done (it it' : SectionIterator) : next it = (none, it') → Delivers next it []
  | step (it it' : SectionIterator) (s : List Op × SectionHeader) (ss) :
      next it = (some (.ok s), it') → Delivers next it' ss → Delivers next it (s :: ss)

/-- What has to be put right in a delivered header before it can be written: it is not compressed any
more, and the number of add bytes is that of its operations. -/
def putRight (s : List Op × SectionHeader) : List Op × SectionHeader :=
  (s.1, { s.2 with compressionAlgo := 0, numAddBytes := UInt32.ofNat (addBytes s.1).length })

end Smdiff.Spec
