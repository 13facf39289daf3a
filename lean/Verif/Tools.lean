import Verif.Main
import Verif.Local

/-!
# The main functions of the tools `preprocess` and `postprocess`

Checks and defaults of the options of `preprocess.cpp` behind the parsing of the command line by boost, and what the postprocessing tool reads
of its file.
-/

set_option autoImplicit false

namespace Bwtc.Tools
open Container

/-- The options of the preprocessing tool (preprocess.cpp:118-136); `none`: not given.  `block` is a `uint64`.  The options `stdin`, `stdout`,
`verb` and the names of the files are left out; `escape` is read, but never used (preprocess.cpp:57-97). -/
structure PreArgs where
  help : Bool
  block : Option Nat
  prepr : Option (List UInt8)

/-- What the tool does: ends with an error message and status 1, prints the help, or writes a file (`none`: undefined behaviour). -/
inductive PreOutcome where
  | error
  | help
  | ran (r : Option (List UInt8))

/-- `main` (preprocess.cpp:113-184) with the same check of `prepr` as in the compressor (preprocess.cpp:100-111): a block size of 0 is made 1
(kB), and the product with 1024 is taken in 64 bits.  The letter, the number of starting points and the memory limit in the options of the
model are not used by the tool. -/
def preprocessMain (a : PreArgs) (e : Env) (input : List UInt8) : PreOutcome :=
  let block := a.block.getD 100000
  let prepr := a.prepr.getD []
  if !Main.validPrepr prepr then .error
  else if a.help then .help
  else
    let block := if block ≤ 0 then 1 else block
    .ran (preprocessTool ⟨72, 1, prepr.length, 0⟩ e (block * 1024 % 2 ^ 64) input)

/-- A size of zero ends with a byte of eight zero bits. -/
theorem readVar_end {s r : List Bool} {n : Nat} (h : Varint.readVar s = some (0, n, r)) : ∃ v, s = v ++ List.replicate 8 false ++ r := by
  exact Container.readVarGo_zero 0 0 0 s r n h

/-- Nothing behind the end marker matters to the postprocessing tool. -/
theorem postprocessBlocks_loc (f : Nat) (s : List Bool) (y : List UInt8) (h : postprocessBlocks f s = some y) :
    ∃ v r, s = v ++ List.replicate 8 false ++ r ∧ ∀ t : List Bool, t.length % 8 = r.length % 8 → ∀ f', v.length < 8 * f' →
      postprocessBlocks f' (v ++ List.replicate 8 false ++ t) = some y := by
  induction f generalizing s y with
  | zero => simp [postprocessBlocks] at h
  | succ f ih =>
    rw [postprocessBlocks] at h
    simp only [Option.bind_eq_bind, Option.bind_eq_some_iff] at h
    obtain ⟨⟨size, n, s1⟩, h1, h2⟩ := h
    obtain ⟨⟨_, _⟩, u1, _, e1, rfl, g1⟩ := Varint.readVar_loc s _ h1
    simp only [three, Prod.mk.injEq] at e1
    obtain ⟨rfl, rfl, rfl⟩ := e1
    obtain ⟨⟨_, _⟩, _, e1, l1⟩ := Varint.readVar_eats _ _ h1
    simp only [three, Prod.mk.injEq] at e1
    obtain ⟨_, _, rfl⟩ := e1
    rw [List.length_append] at l1
    dsimp only at h2
    by_cases h0 : size = 0
    · subst h0
      rw [if_pos rfl] at h2
      simp only [Option.pure_def, Option.some.injEq] at h2
      subst h2
      obtain ⟨v, hv⟩ := readVar_end h1
      have hv := List.append_cancel_right hv
      refine ⟨v, s1, by rw [hv], ?_⟩
      intro t ht f' hf'
      obtain ⟨f', rfl⟩ : ∃ k, f' = k + 1 := ⟨f' - 1, by omega⟩
      rw [← hv, postprocessBlocks, g1 t ht]
      rfl
    · rw [if_neg h0] at h2
      simp only [Option.bind_eq_some_iff] at h2
      obtain ⟨⟨g, s2⟩, h2, ⟨data, s3⟩, h3, out, h4, z, h5, h6⟩ := h2
      dsimp only at h3 h4 h5 h6
      simp only [Option.pure_def, Option.some.injEq] at h6
      subst h6
      obtain ⟨_, u2, _, e2, rfl, g2⟩ := Grammar.readGrammar_loc s1 _ h2
      simp only [two, Prod.mk.injEq] at e2
      obtain ⟨rfl, rfl⟩ := e2
      obtain ⟨_, u3, _, e3, rfl, g3⟩ := Grammar.readBytes_loc _ s2 _ h3
      simp only [two, Prod.mk.injEq] at e3
      obtain ⟨rfl, rfl⟩ := e3
      obtain ⟨v, r, rfl, g4⟩ := ih s3 z h5
      refine ⟨u1 ++ (u2 ++ (u3 ++ v)), r, by simp, ?_⟩
      intro t ht f' hf'
      simp only [List.length_append] at hf'
      obtain ⟨f', rfl⟩ : ∃ k, f' = k + 1 := ⟨f' - 1, by omega⟩
      have ha : u1 ++ (u2 ++ (u3 ++ v)) ++ List.replicate 8 false ++ t = u1 ++ (u2 ++ (u3 ++ (v ++ List.replicate 8 false ++ t))) := by simp
      rw [ha, postprocessBlocks, g1 _ (by simp only [List.length_append]; omega)]
      simp only [three, Option.bind_eq_bind, Option.bind_some]
      rw [if_neg h0, g2 _ (by simp only [List.length_append]; omega)]
      simp only [two, Option.bind_some]
      rw [g3 _ (by simp only [List.length_append]; omega)]
      simp only [two, Option.bind_some, h4]
      rw [g4 t ht f' (by omega)]
      rfl

end Bwtc.Tools
