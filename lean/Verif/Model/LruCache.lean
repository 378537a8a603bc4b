/-
Model of `/repo/src/util/lru_cache.h`. Only keys are modelled: the class offers no way to read the mapped value or the stored
list iterator, so they are not observable.
-/
namespace Verif.LruCache

variable {K : Type} [DecidableEq K]

/-- lru_cache.h:37-41: `lru_list_` (front first) and the key set of `cache_map_` (duplicate-free). -/
structure State (K : Type) where
  list : List K
  map : List K

/-- lru_cache.h:18 a fresh cache -/
def init : State K := ⟨[], []⟩

/-- lru_cache.h:20-22 `contains` -/
def contains (s : State K) (k : K) : Bool := decide (k ∈ s.map)

/-- lru_cache.h:25-30: evict `lru_list_.back()`; `none` is undefined behaviour (`back()` of an empty list). -/
def evict (s : State K) : Option (State K) :=
  match s.list.getLast? with
  | none => none
  | some least => some ⟨s.list.dropLast, s.map.filter (· ≠ least)⟩

/-- lru_cache.h:33-34: push the key to the front of the list and (re)assign its map entry. -/
def push (s : State K) (k : K) : State K :=
  ⟨k :: s.list, if k ∈ s.map then s.map else k :: s.map⟩

/-- lru_cache.h:24-35 `insert` -/
def insert (capacity : Nat) (s : State K) (k : K) : Option (State K) :=
  if capacity ≤ s.map.length then (evict s).map (push · k) else some (push s k)

/-- A sequence of insertions, oldest first. -/
def run (capacity : Nat) (s : State K) : List K → Option (State K)
  | [] => some s
  | k :: ks => (insert capacity s k).bind (fun s' => run capacity s' ks)

end Verif.LruCache
