/-! Model of the event queue of the sweep (clip.hpp:284-319 and 828-1014).

Simplifications: `std::pmr::vector` is a list; `std::size_t` and `std::ptrdiff_t` are unbounded; moving an event is
copying it (events are trivially copyable); `std::ranges::sort` is insertion sort (the result is the same for
every sort, C21); `std::lower_bound` returns the
length of the longest prefix whose elements are all less than the key (what it returns on a partitioned range).
The points are seen only through `x`, the x coordinate of a point index. -/
namespace PolyOps.Events

/-- clip.hpp:293 `event_type_t`. -/
inductive EvTy | vforward | backward | forward | vbackward
deriving DecidableEq, Repr, Inhabited

/-- Order of the enumerators. -/
def EvTy.rank : EvTy → Nat
  | .vforward => 0
  | .backward => 1
  | .forward => 2
  | .vbackward => 3

/-- `forward` or `vforward`. -/
def EvTy.isFwd : EvTy → Bool
  | .vforward | .forward => true
  | .backward | .vbackward => false

/-- clip.hpp:301 `event`. `del` is `status == deleted`. -/
structure Ev where
  a : Nat
  b : Nat
  node : Nat
  ty : EvTy
  del : Bool
deriving DecidableEq, Repr, Inhabited

/-- clip.hpp:829 `event_cmp`. -/
def less (x : Nat → Int) (l1 l2 : Ev) : Bool :=
  if x l1.a ≠ x l2.a then decide (x l1.a < x l2.a)
  else if l1.ty ≠ l2.ty then decide (l1.ty.rank < l2.ty.rank)
  else if l1.a ≠ l2.a then decide (l1.a < l2.a)
  else decide (l1.b < l2.b)

/-- Insertion into a sorted list; `lt` is the strict order. -/
def insSorted {α : Type} (lt : α → α → Bool) (a : α) : List α → List α
  | [] => [a]
  | b :: l => if lt b a then b :: insSorted lt a l else a :: b :: l

/-- Sorting. -/
def sortBy {α : Type} (lt : α → α → Bool) : List α → List α
  | [] => []
  | a :: l => insSorted lt a (sortBy lt l)

/-- clip.hpp:841 `events_t`. `news` is `new_events`, `cur` is `current_i`, `last` is `last_size`. -/
structure Queue where
  events : List Ev
  news : List (Ev × Nat)
  cur : Int
  last : Nat
deriving Repr

/-- clip.hpp:870, 873 constructor and `clear`. -/
def Queue.empty : Queue := ⟨[], [], -1, 0⟩

/-- clip.hpp:880 `rewind`. -/
def Queue.rewind (q : Queue) : Queue := { q with cur := -1 }

/-- clip.hpp:906 `more`. -/
def Queue.more (q : Queue) : Bool := decide (q.cur + 1 < q.events.length) || !q.news.isEmpty

/-- Array write. -/
def upd {α : Type} (f : Nat → α) (j : Nat) (e : α) : Nat → α := fun k => if k = j then e else f k

/-- clip.hpp:858-861: the inner loop of `incorporate_new`, `while(j > lim) { events[j] = events[j-i]; --j; }`. -/
def shiftLoop {α : Type} (i lim : Nat) : Nat → (Nat → α) → (Nat → α)
  | 0, f => f
  | j + 1, f => if j + 1 > lim then shiftLoop i lim j (upd f (j + 1) (f (j + 1 - i))) else f

/-- clip.hpp:857-863: the outer loop of `incorporate_new`. The list is `new_events` in reverse, so the head is
`new_events[i-1]`. After the inner loop `j` is the smaller of `j` and `new_events[i-1].i`. -/
def incLoop {α : Type} : List (α × Nat) → Nat → (Nat → α) → (Nat → α)
  | [], _, f => f
  | (e, p) :: rest, j, f =>
    let f := shiftLoop (rest.length + 1) p j f
    incLoop rest (min j p - 1) (upd f (min j p) e)

/-- clip.hpp:855 `incorporate_new`. -/
def Queue.incorporate (q : Queue) : Queue :=
  let f := incLoop q.news.reverse (q.events.length - 1) (fun k => q.events.getD k default)
  let events := (List.range q.events.length).map f
  ⟨events, [], q.cur, events.length⟩

/-- `std::lower_bound` on a sorted range. -/
def lowerBound (x : Nat → Int) (l : List Ev) (e : Ev) : Nat := (l.takeWhile fun f => less x f e).length

/-- clip.hpp:942 comparison of the items to insert. -/
def insLess (x : Nat → Int) (a b : Ev × Nat) : Bool :=
  if a.2 ≠ b.2 then decide (a.2 < b.2) else less x a.1 b.1

/-- clip.hpp:946 `new_events[i].i += i`. -/
def addIdx {α : Type} (l : List (α × Nat)) : List (α × Nat) := l.zipIdx.map fun e => (e.1.1, e.1.2 + e.2)

/-- clip.hpp:927-946: positions of the events added since the last call. -/
def placeNew (x : Nat → Int) (events : List Ev) (last : Nat) : List (Ev × Nat) :=
  addIdx (sortBy (insLess x) ((events.drop last).map fun e => (e, lowerBound x (events.take last) e)))

/-- clip.hpp:957 `return {events[++current_i],true}`. -/
def Queue.advance (q : Queue) : Option (Ev × Bool × Queue) :=
  (q.events[(q.cur + 1).toNat]?).map fun e => (e, true, { q with cur := q.cur + 1 })

/-- The returned element when going back. -/
def Queue.back (q : Queue) : Option (Ev × Bool × Queue) :=
  (q.events[q.cur.toNat]?).map fun e => (e, false, q)

/-- clip.hpp:910 `next`. `none`: access past the end (undefined behaviour; excluded when `more()` holds). -/
def Queue.next (x : Nat → Int) (q : Queue) : Option (Ev × Bool × Queue) :=
  match q.news with
  | n :: _ =>
    let q := { q with cur := q.cur - 1 }
    if q.cur ≥ (n.2 : Int) then q.back else q.incorporate.advance
  | [] =>
    if q.events.length > q.last then
      if q.last = 0 then
        let events := sortBy (less x) q.events
        Queue.advance { q with events := events, last := events.length }
      else
        let q := { q with news := placeNew x q.events q.last }
        match q.news with
        | n :: _ => if (n.2 : Int) ≤ q.cur then q.back else q.incorporate.advance
        | [] => q.advance
    else q.advance

/-- clip.hpp:960 `add_event`. -/
def Queue.addEvent (q : Queue) (a b node : Nat) (ty : EvTy) : Queue :=
  { q with events := q.events ++ [⟨a, b, node, ty, false⟩] }

/-- clip.hpp:964 `add_fb_events`. -/
def Queue.addFb (x : Nat → Int) (q : Queue) (sa sb node : Nat) : Queue :=
  if x sa = x sb then (q.addEvent sa sb node .vforward).addEvent sb sa node .vbackward
  else (q.addEvent sa sb node .forward).addEvent sb sa node .backward

/-- clip.hpp:888, 898 `find`, used to mark an event deleted (clip.hpp:2105): `lower_bound` over the sorted part. -/
def Queue.findIdx (x : Nat → Int) (q : Queue) (a b : Nat) (ty : EvTy) : Nat :=
  lowerBound x (q.events.take q.last) ⟨a, b, 0, ty, false⟩

/-- `events[i].status = deleted`. -/
def Queue.delAt (q : Queue) (i : Nat) : Queue :=
  { q with events := q.events.modify i fun e => { e with del := true } }

/-- clip.hpp:982 `touching_removed`: the segments (start, end) of earlier end events at the current x. -/
def Queue.touchingRemoved (x : Nat → Int) (q : Queue) : List (Nat × Nat) :=
  let cx := x ((q.events.getD q.cur.toNat default).a)
  ((((q.events.take q.cur.toNat).reverse.filter fun e => !e.ty.isFwd && !e.del).takeWhile
    fun e => decide (cx = x e.a))).map fun e => (e.b, e.a)

/-- clip.hpp:995 `touching_pending`: the segments of later start events at the current x. -/
def Queue.touchingPending (x : Nat → Int) (q : Queue) : List (Nat × Nat) :=
  let cx := x ((q.events.getD q.cur.toNat default).a)
  ((((q.events.drop (q.cur.toNat + 1)).filter fun e => e.ty.isFwd && !e.del).takeWhile
    fun e => decide (cx = x e.a))).map fun e => (e.a, e.b)

end PolyOps.Events
