import Verif.Model.Trie

/-!
# compressors/lz78/JudyTrie.hpp

Only compiled if the Judy library is found (`JUDY_H_AVAILABLE`). The library's array is trusted to be an array: `JLI` delivers the place of a key and creates
it with the value 0. `create_node(id, c)` (squeeze_node.hpp:28-30) has 40 bits and is represented by the pair, which is faithful for `id < 2^32`.
-/

namespace Tdc

/-- JudyTrie.hpp:20-21 `m_dict` (keys never looked up have the value 0 that `JLI` creates) and `m_size` -/
structure JudyState where
  dict : Nat × UInt8 → Nat
  size : Nat

/-- `find(node) = v` (JudyTrie.hpp:23-28) -/
def JudyState.put (s : JudyState) (k : Nat × UInt8) (v : Nat) : Nat × UInt8 → Nat := fun x => if x = k then v else s.dict x

/-- JudyTrie.hpp:31-83. `factorid_t` has 32 bits. A root node is stored with its number (:53), any other with its number plus 1 (:73-74); for a new
node the number plus 1 is also returned (:76), for an old one the value minus 1 (:78). -/
def judyTrie : TrieImpl where
  σ := JudyState
  empty := ⟨fun _ => 0, 0⟩
  addRoot s c := ⟨s.put (0, c) (s.size % 2 ^ 32), s.size + 1⟩             -- :51-56
  getRoot s c := (s, c.toNat)                                               -- :46-49
  findOrInsert s p c :=                                                     -- :66-79
    let id := s.dict (p, c)
    if id = 0 then .ok (⟨s.put (p, c) ((s.size + 1) % 2 ^ 32), s.size + 1⟩, (s.size + 1) % 2 ^ 32, true)
    else .ok (s, id - 1, false)
  size s := s.size                                                          -- :81-83
  clear _ := ⟨fun _ => 0, 0⟩                                               -- :58-64

end Tdc
