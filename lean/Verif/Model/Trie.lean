/-
Model of `/repo/src/types/trie.hpp`. A `char` is a `UInt8`, a `std::string` a `List UInt8`. A node's
`unordered_map<char, shared_ptr<TrieNode>>` is a list of pairs; its order is the map's (unspecified) iteration order, see
`Reorder`. Sharing of nodes does not occur (every node has one parent), so the pointer graph is a tree.
-/
namespace Verif.Trie

abbrev Str := List UInt8

/-- trie.hpp:20-24 `TrieNode` -/
inductive Node where
  | mk (isEnd : Bool) (value : Str) (children : List (UInt8 × Node))

/-- trie.hpp:30-32: a fresh node: no children, empty value, not an end. -/
def Node.empty : Node := .mk false [] []

/-- `children.find(c)` (`none` = `end()`). -/
def child (ch : List (UInt8 × Node)) (c : UInt8) : Option Node :=
  match ch with
  | [] => none
  | (d, n) :: rest => if d = c then some n else child rest c

/-- `children[c] = n` on an unordered_map: replace the mapped value, or add a new entry. -/
def setChild (ch : List (UInt8 × Node)) (c : UInt8) (n : Node) : List (UInt8 × Node) :=
  match ch with
  | [] => [(c, n)]
  | (d, m) :: rest => if d = c then (d, n) :: rest else (d, m) :: setChild rest c n

/-- trie.hpp:34-44 `Trie::insert`: the loop over `word`, creating missing children; at the end set `isEnd` and `value`. -/
def insert : Node → Str → Str → Node
  | .mk _ _ ch, [], v => .mk true v ch
  | .mk e val ch, c :: cs, v =>
    match child ch c with
    | none => .mk e val (setChild ch c (insert .empty cs v))
    | some n => .mk e val (setChild ch c (insert n cs v))

/-- The loop shared by trie.hpp:48-53, 59-64, 70-75, 84-89, 99-104: follow the characters; `none` if a child is missing. -/
def walk : Node → Str → Option Node
  | n, [] => some n
  | .mk _ _ ch, c :: cs =>
    match child ch c with
    | none => none
    | some n => walk n cs

/-- trie.hpp:46-55 `Trie::search` -/
def search (root : Node) (word : Str) : Bool :=
  match walk root word with
  | none => false
  | some (.mk e _ _) => e

/-- trie.hpp:57-66 `Trie::startsWith` -/
def startsWith (root : Node) (pre : Str) : Bool :=
  match walk root pre with
  | none => false
  | some _ => true

/-- trie.hpp:68-80 `Trie::lookup` -/
def lookup (root : Node) (word : Str) : Str :=
  match walk root word with
  | none => []
  | some (.mk e v _) => if e then v else []

/-- trie.hpp:82-91 `Trie::match` (the `node != nullptr` test is always true) -/
def matches_ (root : Node) (word : Str) : Bool :=
  match walk root word with
  | none => false
  | some (.mk e _ _) => e

mutual
/-- trie.hpp:107-117 the `dfs` lambda; `result` is the captured variable, threaded through. -/
def dfs : Node → Str → Str → Str
  | .mk e _ ch, cur, result =>
    dfsList ch cur (if e then (if result.length < cur.length then cur else result) else result)
/-- trie.hpp:114-116 the loop over the children -/
def dfsList : List (UInt8 × Node) → Str → Str → Str
  | [], _, result => result
  | (c, n) :: rest, cur, result => dfsList rest cur (dfs n (cur ++ [c]) result)
end

/-- trie.hpp:94-122 `Trie::complete` -/
def complete (root : Node) (pre : Str) : Str :=
  match walk root pre with
  | none => []
  | some n => dfs n pre pre

/-- The map may present its entries in any order (and change it on rehash), at any node. -/
inductive Reorder : Node → Node → Prop
  | here {e v ch ch'} : ch.Perm ch' → Reorder (.mk e v ch) (.mk e v ch')
  | inside {e v l c n n' r} : Reorder n n' → Reorder (.mk e v (l ++ (c, n) :: r)) (.mk e v (l ++ (c, n') :: r))

/-- States reachable from the empty trie by insertions; the list is the history, most recent first. Between calls the maps
may be reordered arbitrarily. -/
inductive Reach : List (Str × Str) → Node → Prop
  | empty : Reach [] .empty
  | insert {h n} (w v : Str) : Reach h n → Reach ((w, v) :: h) (insert n w v)
  | reorder {h n n'} : Reach h n → Reorder n n' → Reach h n'

end Verif.Trie
