import Verif.Model.ReceiverLog
import Verif.Spec.View

/-!
# How the log of a consumer is read
-/

namespace Verif.Spec

open Verif

/-- What a line says. -/
inductive ReceiverNotice
  | member (generation : Int)
  | claimed (topic : Str) (partition : Int)
  | failed (error : Str)
  | refused (error : Str)

/-- The line says this. -/
inductive NoticeText : Str → ReceiverNotice → Prop
  | member {t : Str} {g : Int} : IntText t g → NoticeText (b!"Member of consumer group with generation id " ++ t) (.member g)
  | claimed {t topic : Str} {p : Int} : IntText t p → NoticeText (b!"  * claimed " ++ topic ++ b!":" ++ t) (.claimed topic p)
  | failed {e : Str} : NoticeText (b!"Error during consumer group session: " ++ e) (.failed e)
  | refused {e : Str} : NoticeText (b!"Cannot deserialize kafka message: " ++ e) (.refused e)

/-- The partitions that are named behind the last line about the group. -/
def toldPartitions (notices : List ReceiverNotice) : List (Str × Int) :=
  notices.foldl (fun l n => match n with
    | .member _ => []
    | .claimed t p => l ++ [(t, p)]
    | _ => l) []

/-- How often an error of a session is told. -/
def toldFailures (notices : List ReceiverNotice) : Nat :=
  notices.countP fun n => match n with
    | .failed _ => true
    | _ => false

end Verif.Spec
