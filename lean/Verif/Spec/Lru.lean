import Verif.Model.Lru

/-!
# What an LRU cache of strings is
-/

namespace Verif

/-- The states that calls lead to, from a new cache, together with the strings that were used, most
recently used first. A `Set` uses its string, a `Get` uses it if it is there (it returns something). -/
inductive Lru.Reachable {δ : Type} (maxSize : Int) : Lru δ → List Str → Prop
  | new (d : δ) : Lru.Reachable maxSize (Lru.new maxSize d) []
  | hit {c : Lru δ} {uses key r} : Lru.Reachable maxSize c uses → (c.get key).2 = some r →
      Lru.Reachable maxSize (c.get key).1 (key :: uses)
  | miss {c : Lru δ} {uses key} : Lru.Reachable maxSize c uses → (c.get key).2 = none →
      Lru.Reachable maxSize (c.get key).1 uses
  | set {c c' : Lru δ} {uses value data fuel} : Lru.Reachable maxSize c uses → c.set fuel value data = some c' →
      Lru.Reachable maxSize c' (value :: uses)

/-- The distinct strings among the used ones, most recently used first. -/
def recent : List Str → List Str
  | [] => []
  | s :: older => s :: (recent older).filter (· ≠ s)

/-- What is found by following pointers from `start`. -/
inductive Follows (link : Nat → Option Nat) : Option Nat → List Nat → Prop
  | nil : Follows link none []
  | cons {a l} : Follows link (link a) l → Follows link (some a) (a :: l)

/-- The strings in the cache, in the order of the list of entries. -/
def Lru.Contents {δ} (c : Lru δ) (strings : List Str) : Prop :=
  ∃ l, Follows (fun e => (c.nodes e).next) c.usage.head l ∧ strings = l.map fun e => (c.nodes e).value

/-- The cost of strings in the cache: their length and 56 bytes each. -/
def cost (strings : List Str) : Int := (strings.map fun s => (s.length : Int) + 56).sum

end Verif
