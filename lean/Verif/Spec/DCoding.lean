import Verif.Model.EspSorted

/-!
# What a coder of right-hand sides has to do

`N` bounds the length of the lists. A coder is asked to code values of at most `mx`, where `mx` has `w` bits.
-/

namespace Tdc
namespace Esp

/-- What is encoded comes back, and what follows in the stream is left alone. -/
def DCoder.Sound (N : Nat) (d : DCoder) : Prop :=
  ∀ (w mx : Nat) (l : List Nat) (bits rest : List Bool), (∀ x ∈ l, x ≤ mx) → mx < 2 ^ w → w ≤ 62 → l.length < N → l ≠ [] →
    d.enc w mx l = .ok bits → d.dec w mx l.length (bits ++ rest) = .ok (l, rest)

/-- Every list is encoded. -/
def DCoder.Total (N : Nat) (d : DCoder) : Prop :=
  ∀ (w mx : Nat) (l : List Nat), (∀ x ∈ l, x ≤ mx) → mx < 2 ^ w → w ≤ 62 → l.length < N → l ≠ [] → ∃ bits, d.enc w mx l = .ok bits

/-- The same for the right-hand sides of a grammar: the largest symbol exceeds the number of rules. -/
def DCoder.SoundRhs (N : Nat) (d : DCoder) : Prop :=
  ∀ (w mx : Nat) (l : List Nat) (bits rest : List Bool), (∀ x ∈ l, x ≤ mx) → mx < 2 ^ w → w ≤ 62 → l.length < N → l ≠ [] → l.length ≤ mx →
    d.enc w mx l = .ok bits → d.dec w mx l.length (bits ++ rest) = .ok (l, rest)

def DCoder.TotalRhs (N : Nat) (d : DCoder) : Prop :=
  ∀ (w mx : Nat) (l : List Nat), (∀ x ∈ l, x ≤ mx) → mx < 2 ^ w → w ≤ 62 → l.length < N → l ≠ [] → l.length ≤ mx → ∃ bits, d.enc w mx l = .ok bits

/-- The same for the names of subsequences, of which there are fewer than `N`; every index has two of them. -/
def DCoder.SoundIdx (N : Nat) (d : DCoder) : Prop :=
  ∀ (w mx : Nat) (l : List Nat) (bits rest : List Bool), (∀ x ∈ l, x ≤ mx) → mx < 2 ^ w → w ≤ 62 → l.length < 2 * N → l ≠ [] → mx < N →
    d.enc w mx l = .ok bits → d.dec w mx l.length (bits ++ rest) = .ok (l, rest)

def DCoder.TotalIdx (N : Nat) (d : DCoder) : Prop :=
  ∀ (w mx : Nat) (l : List Nat), (∀ x ∈ l, x ≤ mx) → mx < 2 ^ w → w ≤ 62 → l.length < 2 * N → l ≠ [] → mx < N → ∃ bits, d.enc w mx l = .ok bits

theorem DCoder.Sound.idx {N : Nat} {d : DCoder} (h : d.Sound (2 * N)) : d.SoundIdx N :=
  fun w mx l bits rest h1 h2 h3 h4 h5 _ => h w mx l bits rest h1 h2 h3 h4 h5

theorem DCoder.Total.idx {N : Nat} {d : DCoder} (h : d.Total (2 * N)) : d.TotalIdx N := fun w mx l h1 h2 h3 h4 h5 _ => h w mx l h1 h2 h3 h4 h5

theorem DCoder.Sound.rhs {N : Nat} {d : DCoder} (h : d.Sound N) : d.SoundRhs N :=
  fun w mx l bits rest h1 h2 h3 h4 h5 _ => h w mx l bits rest h1 h2 h3 h4 h5

theorem DCoder.Total.rhs {N : Nat} {d : DCoder} (h : d.Total N) : d.TotalRhs N := fun w mx l h1 h2 h3 h4 h5 _ => h w mx l h1 h2 h3 h4 h5

end Esp
end Tdc
