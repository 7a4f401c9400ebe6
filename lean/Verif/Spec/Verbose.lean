import Verif.Spec.Warnings
import Verif.Spec.Debug
import Verif.Model.Verbose

/-!
# What the log says at the level Debug
-/

namespace Verif.Spec

/-- What is said, in one line or in several. -/
inductive Detail
  /-- what is said at the default level as well -/
  | notice (n : Notice)
  /-- the traces are examined: the buffer time in seconds, the number of spans -/
  | checking (seconds spans : Nat)
  /-- a root was made up -/
  | injected
  /-- a trace is dropped since it has no unique root; the number of its spans -/
  | noRoot (trace : Id) (spans : Nat)
  /-- the spans of a trace -/
  | tree (spans : List Span)

/-- The lines say this. -/
inductive Tells : List Written → Detail → Prop
  | notice {line : Str} {n : Notice} : Says line n → Tells [.text line] (.notice n)
  | checking {s n : Str} {seconds spans : Nat} : CountText s seconds → CountText n spans →
    Tells [.text (b!"Checking for expired spans with bufferTime=" ++ s ++ b!"s (" ++ n ++ b!" spans)")] (.checking seconds spans)
  | injected : Tells [.text b!"Missing root, injecting fake-root span"] .injected
  | noRoot {i n : Str} {trace : Id} {spans : Nat} : IdText i trace → CountText n spans →
    Tells [.text (b!"No unique root for trace " ++ i ++ b!" with " ++ n ++ b!" spans")] (.noRoot trace spans)
  /-- all spans down to the sixth level, with at most 32 children for each -/
  | tree {lines : List LogLine} {spans : List Span} : (∀ d s, (d, s) ∈ printed lines ↔ Shown spans d s) → Tells (lines.map .tree) (.tree spans)

/-- The lines say all of this, in this order, and nothing else. -/
inductive TellsAll : List Written → List Detail → Prop
  | nil : TellsAll [] []
  | cons {a b : List Written} {d : Detail} {l : List Detail} : Tells a d → TellsAll b l → TellsAll (a ++ b) (d :: l)

/-- What is said about a trace that leaves the collector. -/
inductive Account : Removal → List Detail → Prop
  | tooLarge {id : Id} {t : Tree} : Account ⟨id, t, .tooLarge⟩ [.notice (.tooLarge id (size t)), .tree t.spans]
  | tooOld {id : Id} {t : Tree} : Account ⟨id, t, .tooOld⟩ [.notice (.tooOld id (size t)), .tree t.spans]
  /-- nothing, if it is passed on as it is -/
  | emitted {id : Id} {t : Tree} {out : List Span} : (∀ p, ¬ SharedParent t.spans p) → Account ⟨id, t, .emitted out⟩ []
  /-- a root was made up for it -/
  | repaired {id p : Id} {t : Tree} {base out : List Span} : SharedParent t.spans p → Repaired id t.spans base → Account ⟨id, t, .emitted out⟩ [.injected, .tree base]
  | noRoot {id : Id} {t : Tree} : (∀ p, ¬ SharedParent t.spans p) → Account ⟨id, t, .noRoot⟩ [.noRoot id (size t), .tree t.spans]
  /-- a root was made up for it, in vain; it is counted -/
  | inVain {id p : Id} {t : Tree} {base : List Span} : SharedParent t.spans p → Repaired id t.spans base →
    Account ⟨id, t, .noRoot⟩ [.injected, .tree base, .noRoot id (base.length % 65536), .tree base]
  /-- nothing about a single trace if it is discarded -/
  | discarded {id : Id} {t : Tree} : Account ⟨id, t, .discarded⟩ []

/-- The texts among the lines. -/
def texts (l : List Written) : List Str :=
  l.filterMap fun
    | .text line => some line
    | .tree _ => none

end Verif.Spec
