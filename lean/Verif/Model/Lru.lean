import Verif.Model.Go

/-!
# cache/lru.go
-/

namespace Verif

/-- cache/lru.go:90-93 `entry`; pointers are numbers, `nil` is `none`. The value is a Go string: its contents
`value`, and the pointer to its bytes `data` (which matters for C18 only). -/
structure Node (δ : Type) where
  prev : Option Nat := none
  next : Option Nat := none
  value : Str
  data : δ

/-- The memory of entries. -/
abbrev Nodes (δ : Type) := Nat → Node δ

def Nodes.setPrev {δ} (h : Nodes δ) (e : Nat) (p : Option Nat) : Nodes δ :=
  fun x => if x = e then { h e with prev := p } else h x

def Nodes.setNext {δ} (h : Nodes δ) (e : Nat) (p : Option Nat) : Nodes δ :=
  fun x => if x = e then { h e with next := p } else h x

/-- cache/lru.go:95-98 `linkedList`. -/
structure LinkedList where
  head : Option Nat := none
  tail : Option Nat := none

/-- cache/lru.go:100-134 `PushHead`. -/
def pushHead {δ} (h : Nodes δ) (l : LinkedList) (e : Nat) : Nodes δ × LinkedList :=
  if l.head = some e then (h, l)
  else
    -- lines 106-108
    let tail := if l.tail = some e then (h e).prev else l.tail
    -- lines 111-113
    let h := match (h e).prev with
      | some p => h.setNext p (h e).next
      | none => h
    -- lines 116-118
    let h := match (h e).next with
      | some n => h.setPrev n (h e).prev
      | none => h
    -- lines 121-123
    let h := match l.head with
      | some x => h.setPrev x (some e)
      | none => h
    -- lines 126-128
    let h := h.setPrev e none
    let h := h.setNext e l.head
    -- lines 131-133
    (h, { head := some e, tail := if tail = none then some e else tail })

/-- cache/lru.go:136-158 `DropTail`. -/
def dropTail {δ} (h : Nodes δ) (l : LinkedList) : Nodes δ × LinkedList × Option Nat :=
  match l.tail with
  | none => (h, l, none)
  | some e =>
    let (h, tail) := match (h e).prev with
      | some p => (h.setNext p none, some p)
      | none => (h, l.tail)
    if l.head = some e then (h, { head := none, tail := none }, some e)
    else (h, { l with tail }, some e)

/-- cache/lru.go:160-170 `(*linkedList).Count`, following `next` at most `fuel` times; `none` if that is not
enough. -/
def countLoop {δ} (h : Nodes δ) : Nat → Option Nat → Option Nat
  | _, none => some 0
  | 0, some _ => none
  | fuel + 1, some e => (countLoop h fuel (h e).next).map (· + 1)

/-- cache/lru.go:10-18 `lruCache`. The numbers are unbounded here (they are bounded by the memory of the
machine); `fresh` is the address of the next entry. -/
structure Lru (δ : Type) where
  maxSize : Int
  size : Int := 0
  count : Int := 0
  values : Std.ExtTreeMap Str Nat := ∅
  usage : LinkedList := {}
  nodes : Nodes δ
  fresh : Nat := 0

namespace Lru

variable {δ : Type}

/-- cache/lru.go:20-23 `itemOverhead`: 32 for the entry, 8 for the pointer, 16 for the string header. -/
def itemOverhead : Int := 56

/-- cache/lru.go:25-31 `NewLRUCache`. -/
def new (maxSize : Int) (d : δ) : Lru δ := { maxSize, nodes := fun _ => { value := [], data := d } }

/-- cache/lru.go:82-84 `Size`. -/
def Size (c : Lru δ) : Int := c.size + c.count * itemOverhead

/-- cache/lru.go:86-88 `Count`. -/
def Count (c : Lru δ) : Int := c.count

/-- cache/lru.go:33-43 `Get`; the result is the string found (its contents and its pointer), `none` stands for the
empty string that is returned if there is none. -/
def get (c : Lru δ) (key : Str) : Lru δ × Option (Str × δ) :=
  match c.values[key]? with
  | none => (c, none)
  | some item =>
    let p := pushHead c.nodes c.usage item
    ({ c with nodes := p.1, usage := p.2 }, some ((c.nodes item).value, (c.nodes item).data))

/-- cache/lru.go:69-78: one iteration of the loop in `ensureCacheSize`. -/
def dropOne (c : Lru δ) : Lru δ :=
  match dropTail c.nodes c.usage with
  | (_, _, none) => c
  | (nodes, usage, some el) =>
    { c with
      nodes
      usage
      values := c.values.erase (nodes el).value
      count := c.count - 1
      size := c.size - (nodes el).value.length }

/-- cache/lru.go:67-80 `ensureCacheSize`, with at most `fuel` iterations; `none` if that is not enough. -/
def ensureCacheSize : Nat → Lru δ → Option (Lru δ)
  | 0, c => if c.Size ≥ c.maxSize then none else some c
  | fuel + 1, c => if c.Size ≥ c.maxSize then ensureCacheSize fuel c.dropOne else some c

/-- cache/lru.go:56-63: the insertion of a new entry. -/
def insert (c : Lru δ) (value : Str) (data : δ) : Lru δ :=
  let e := c.fresh
  let nodes : Nodes δ := fun x => if x = e then { value, data } else c.nodes x
  let p := pushHead nodes c.usage e
  { c with
    nodes := p.1
    usage := p.2
    values := c.values.insert value e
    count := c.count + 1
    size := c.size + value.length
    fresh := e + 1 }

/-- cache/lru.go:45-65 `Set`; `none` if the loop needs more than `fuel` iterations. -/
def set (fuel : Nat) (c : Lru δ) (value : Str) (data : δ) : Option (Lru δ) :=
  match c.values[value]? with
  | some item =>
    let p := pushHead c.nodes c.usage item
    some { c with nodes := p.1, usage := p.2 }
  | none => (ensureCacheSize fuel c).map fun c => c.insert value data

end Lru

end Verif
