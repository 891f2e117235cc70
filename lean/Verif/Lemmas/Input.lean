import Verif.Model.Input
import Verif.Lemmas.Restrict

/-! # Lemmas about inputs -/

namespace Tdc

theorem sliceV_ok {s : List UInt8} {frm : Nat} {upto : Option Nat} (h1 : frm ≤ upto.getD s.length)
    (h2 : upto.getD s.length ≤ s.length) :
    sliceV s frm upto = .ok ((s.take (upto.getD s.length)).drop frm) := by
  unfold sliceV
  simp only
  rw [if_pos ⟨h1, h2⟩]

/-- Scanning over escaped characters none of which contains the escape byte as its second byte. -/
theorem scanEscaped_pass {r : Restr} {f : FastEsc} {u : FastUnesc} (ho : EscOk r f u) (target : Nat) :
    ∀ (t rest : List UInt8) (i n : Nat), f.escapeByte ∉ t → n + t.length ≤ target →
      scanEscaped f.escapeByte target (escList f t ++ rest) i n
        = scanEscaped f.escapeByte target rest (i + (escList f t).length) (n + t.length) := by
  intro t
  induction t with
  | nil => intro rest i n _ _; simp [escList]
  | cons c t ih =>
    intro rest i n hmem hle
    simp only [List.mem_cons, not_or] at hmem
    have hc : c ≠ f.escapeByte := fun h => hmem.1 h.symm
    simp only [List.length_cons] at hle
    by_cases hfl : c = f.escapeByte ∨ c ∈ r.esc
    · have h1 := ho.flag c
      rw [if_pos hfl] at h1
      have hb : escByte f c = [f.escapeByte, f.map c] := by simp [escByte, h1]
      have hm : f.map c ≠ f.escapeByte := by
        intro h
        have h2 := ho.unmap c hfl
        have h3 := ho.unmap f.escapeByte (.inl rfl)
        rw [ho.mapEsc] at h3
        rw [h, h3] at h2
        exact hc h2.symm
      simp only [escList, List.flatMap_cons, hb, List.cons_append, List.nil_append, List.append_assoc] at ih ⊢
      rw [scanEscaped, if_neg (by omega), scanEscaped]
      simp only [ne_eq, not_true_eq_false, if_false, hm, not_false_eq_true, if_true]
      rw [if_neg (by omega), ih rest (i + 1 + 1) (n + 1) hmem.2 (by omega)]
      congr 1 <;> simp <;> omega
    · have h1 := ho.flag c
      rw [if_neg hfl] at h1
      have hb : escByte f c = [c] := by simp [escByte, h1, ho.mapId c hfl]
      simp only [escList, List.flatMap_cons, hb, List.cons_append, List.nil_append, List.append_assoc] at ih ⊢
      rw [scanEscaped, if_neg (by omega)]
      simp only [ne_eq, hc, not_false_eq_true, if_true]
      rw [ih rest (i + 1) (n + 1) hmem.2 (by omega)]
      congr 1 <;> simp <;> omega

theorem scanEscaped_stop (e : UInt8) (target : Nat) (rest : List UInt8) (i : Nat) (h : rest ≠ []) :
    scanEscaped e target rest i target = (some i, i, target) := by
  cases rest with
  | nil => exact absurd rfl h
  | cons b v => simp [scanEscaped]

/-- The slice of a stream buffer is the restricted slice. -/
theorem streamSlice_spec {r : Restr} {f : FastEsc} {u : FastUnesc} (ht : tableOf r f)
    (ho : (r.esc = [] ∧ u = ⟨fun b => b, 255, r.nt, false⟩) ∨ EscOk r f u)
    (t : List UInt8) (frm : Nat) (upto : Option Nat)
    (h1 : frm ≤ upto.getD t.length) (h2 : upto.getD t.length ≤ t.length)
    (hnt : r.nt = true → upto = none)
    (hesc : r.esc ≠ [] → f.escapeByte ∉ t ∧ (r.nt = true ∨ frm < t.length) ∧ (∀ x, upto = some x → x < t.length)) :
    streamSlice r (restricted r f t) frm upto
      = .ok (restricted r f ((t.take (upto.getD t.length)).drop frm)) := by
  unfold streamSlice
  rcases ho with ⟨hne, _⟩ | ho
  · have hid : ∀ s, escList f s = s := by
      rcases ht with ⟨_, g1, g2⟩ | ⟨g1, _⟩
      · exact escList_id g1 g2
      · exact absurd hne g1
    have hh : r.hasNoEscape = true := by simp [Restr.hasNoEscape, hne]
    simp only [hh, if_true]
    cases hupto : upto with
    | none =>
      subst hupto
      simp only [Option.getD_none] at h1 h2 ⊢
      rw [if_neg (by simp), sliceV_ok (by simp [restricted, hid]; omega) (by simp)]
      simp only [Option.getD_none, List.take_length, restricted, hid]
      rw [List.drop_append_of_le_length h1]
    | some x =>
      subst hupto
      simp only [Option.getD_some] at h1 h2 ⊢
      have hn : r.nt = false := by
        cases h : r.nt
        · rfl
        · exact absurd (hnt h) (by simp)
      rw [hn]
      simp only [Bool.false_and, Bool.false_eq_true, if_false]
      rw [sliceV_ok (by simpa using h1) (by simp [restricted, hid]; omega)]
      simp [restricted, hid, ntList, hn]
  · have hne : r.esc ≠ [] := by
      rcases ht with ⟨g, gf, _⟩ | ⟨g1, _⟩
      · have := ho.flag f.escapeByte
        rw [gf] at this
        simp at this
      · exact g1
    obtain ⟨hfree, hfl, htl⟩ := hesc hne
    have hh : r.hasNoEscape = false := by simpa [Restr.hasNoEscape] using hne
    obtain ⟨em, hem, heb⟩ := ho.escEm
    simp only [hh, Bool.false_eq_true, if_false, hem, heb]
    have hfrm : frm ≤ t.length := by omega
    have hsplit : restricted r f t = escList f (t.take frm) ++ (escList f (t.drop frm) ++ ntList r) := by
      rw [restricted, ← List.append_assoc, ← escList_append, List.take_append_drop]
    have hrest : escList f (t.drop frm) ++ ntList r ≠ [] := by
      intro h
      have hl := congrArg List.length h
      have := length_le_escList ho.flag01 (t.drop frm)
      simp only [List.length_append, ntList_length, List.length_nil, List.length_drop] at hl this
      rcases hfl with h | h
      · rw [h] at hl; simp at hl
      · omega
    have htake : (t.take frm).length = frm := by simp; omega
    have hscan : scanEscaped f.escapeByte frm (restricted r f t) 0 0
        = (some (escList f (t.take frm)).length, (escList f (t.take frm)).length, frm) := by
      rw [hsplit, scanEscaped_pass ho frm _ _ _ _ (fun h => hfree (List.mem_of_mem_take h)) (by omega),
        htake, Nat.zero_add, Nat.zero_add, scanEscaped_stop _ _ _ _ hrest]
    rw [hscan]
    cases hupto : upto with
    | none =>
      subst hupto
      simp only [Option.getD_none, Option.isSome_none, Bool.and_false, Bool.false_eq_true, if_false,
        List.take_length, Option.getD_some]
      rw [sliceV_ok (by simp [hsplit]) (by simp)]
      simp only [Option.getD_none, List.take_length]
      rw [hsplit, List.drop_left, restricted]
    | some x =>
      subst hupto
      simp only [Option.getD_some] at h1 h2 ⊢
      have hn : r.nt = false := by
        cases h : r.nt
        · rfl
        · exact absurd (hnt h) (by simp)
      have hx := htl x rfl
      rw [hn]
      simp only [Bool.false_and, Bool.false_eq_true, if_false]
      have hmid : t.drop frm = (t.take x).drop frm ++ t.drop x := by
        rw [List.drop_take]
        have := List.take_append_drop (x - frm) (t.drop frm)
        rw [List.drop_drop, show frm + (x - frm) = x by omega] at this
        exact this.symm
      have hrest2 : escList f (t.drop x) ++ ntList r ≠ [] := by
        intro h
        have hl := congrArg List.length h
        have := length_le_escList ho.flag01 (t.drop x)
        simp only [List.length_append, ntList_length, List.length_nil, List.length_drop] at hl this
        omega
      have hml : ((t.take x).drop frm).length = x - frm := by simp; omega
      have hscan2 : scanEscaped f.escapeByte x
          ((restricted r f t).drop (escList f (t.take frm)).length) (escList f (t.take frm)).length frm
          = (some ((escList f (t.take frm)).length + (escList f ((t.take x).drop frm)).length),
             (escList f (t.take frm)).length + (escList f ((t.take x).drop frm)).length, x) := by
        rw [hsplit, List.drop_left, hmid, escList_append, List.append_assoc,
          scanEscaped_pass ho x _ _ _ _ (fun h => hfree (List.mem_of_mem_take (List.mem_of_mem_drop h)))
            (by omega), hml, show frm + (x - frm) = x by omega, scanEscaped_stop _ _ _ _ hrest2]
      rw [hscan2]
      simp only [Option.getD_some]
      rw [sliceV_ok (by simp) (by
        rw [hsplit, hmid, escList_append]
        simp)]
      simp only [Option.getD_some]
      congr 1
      rw [hsplit, hmid, escList_append, List.append_assoc, List.take_length_add_append, List.take_left',
        List.drop_left, restricted, ntList, hn]
      · simp
      · rfl

end Tdc
