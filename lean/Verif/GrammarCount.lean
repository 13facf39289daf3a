import Verif.GrammarFreed
import Mathlib.Data.List.Perm.Subperm

/-!
# How many rules a grammar can have
-/

set_option autoImplicit false

namespace Bwtc.Grammar

/-- A number identifying a key. -/
def keyCode : Key → Nat
  | .one c => c.toNat
  | .two a b => 256 + (a.toNat * 256 + b.toNat)

theorem keyCode_lt (k : Key) : keyCode k < 65792 := by
  cases k with
  | one c => have := c.toNat_lt; simp only [keyCode]; omega
  | two a b => have := a.toNat_lt; have := b.toNat_lt; simp only [keyCode]; omega

theorem keyCode_inj {k l : Key} (h : keyCode k = keyCode l) : k = l := by
  cases k with
  | one c =>
    cases l with
    | one d => simp only [keyCode] at h; rw [UInt8.toNat_inj.mp h]
    | two a b => have := c.toNat_lt; simp only [keyCode] at h; omega
  | two a b =>
    have ha := a.toNat_lt
    have hb := b.toNat_lt
    cases l with
    | one d => have := d.toNat_lt; simp only [keyCode] at h; omega
    | two c d =>
      have hd := d.toNat_lt
      simp only [keyCode] at h
      rw [UInt8.toNat_inj.mp (show a.toNat = c.toNat by omega), UInt8.toNat_inj.mp (show b.toNat = d.toNat by omega)]

/-- A list of different numbers below `n` has at most `n` elements. -/
theorem nodup_lt : ∀ (n : Nat) (l : List Nat), l.Nodup → (∀ x ∈ l, x < n) → l.length ≤ n := by
  intro n l hn hl
  have := (List.subperm_of_subset hn (l₂ := List.range n) fun x hx => List.mem_range.mpr (hl x hx)).length_le
  rwa [List.length_range] at this

/-- The variables are different, so a grammar has at most 256 + 65536 rules. -/
theorem rules_le {g : G} {ars : List (Key × List Key)} (h : OK g ars) : g.rules.length ≤ 65792 := by
  have hn := h.lhs_nodup
  have : ((ars.map Prod.fst).map keyCode).Nodup := by
    rw [List.Nodup, List.pairwise_map]
    exact hn.imp fun hne e => hne (keyCode_inj e)
  have := nodup_lt 65792 _ this (by
    intro x hx
    obtain ⟨k, _, rfl⟩ := List.mem_map.mp hx
    exact keyCode_lt k)
  rw [h.rules_eq, List.length_map]
  simpa using this

end Bwtc.Grammar
