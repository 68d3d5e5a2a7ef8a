import Verif.Latex.Model
import Mathlib.Data.List.Basic
import Mathlib.Tactic.Common

/-
The tables that the conversion to LaTeX should follow (property C116), and that the code
agrees with them character by character.
-/

namespace SeQuant.Latex

/-- The Greek letters and their names in LaTeX. -/
def greekNames : List (List Nat × List Nat) :=
  [(w! "α", w! "\\alpha"), (w! "β", w! "\\beta"), (w! "γ", w! "\\gamma"),
   (w! "δ", w! "\\delta"), (w! "ε", w! "\\epsilon"), (w! "ζ", w! "\\zeta"),
   (w! "η", w! "\\eta"), (w! "θ", w! "\\theta"), (w! "ι", w! "\\iota"),
   (w! "κ", w! "\\kappa"), (w! "λ", w! "\\lambda"), (w! "μ", w! "\\mu"),
   (w! "ν", w! "\\nu"), (w! "ξ", w! "\\xi"), (w! "ο", w! "o"), (w! "π", w! "\\pi"),
   (w! "ρ", w! "\\rho"), (w! "ς", w! "\\varsigma"), (w! "σ", w! "\\sigma"),
   (w! "τ", w! "\\tau"), (w! "υ", w! "\\upsilon"), (w! "φ", w! "\\phi"),
   (w! "χ", w! "\\chi"), (w! "ψ", w! "\\psi"), (w! "ω", w! "\\omega"), (w! "Α", w! "A"),
   (w! "Β", w! "B"), (w! "Γ", w! "\\Gamma"), (w! "Δ", w! "\\Delta"), (w! "Ε", w! "E"),
   (w! "Ζ", w! "Z"), (w! "Η", w! "H"), (w! "Θ", w! "\\Theta"), (w! "Ι", w! "I"),
   (w! "Κ", w! "K"), (w! "Λ", w! "\\Lambda"), (w! "Μ", w! "M"), (w! "Ν", w! "N"),
   (w! "Ξ", w! "\\Xi"), (w! "Ο", w! "O"), (w! "Π", w! "\\Pi"), (w! "Ρ", w! "P"),
   (w! "Σ", w! "\\Sigma"), (w! "Τ", w! "T"), (w! "Υ", w! "\\Upsilon"), (w! "Φ", w! "\\Phi"),
   (w! "Χ", w! "X"), (w! "Ψ", w! "\\Psi"), (w! "Ω", w! "\\Omega")]

/-- The same table, by the value of the letter. -/
def greekCodes : List (Nat × List Nat) := greekNames.map fun p => (p.1.headD 0, p.2)

/-- The name of a Greek letter. -/
def greekOf (c : Nat) : Option (List Nat) := greekCodes.lookup c

/-- The combining marks and their accents. -/
def accents : List (Nat × List Nat) :=
  [(0x300, w! "\\grave{"), (0x301, w! "\\acute{"), (0x302, w! "\\hat{"), (0x303, w! "\\tilde{"),
   (0x30C, w! "\\check{")]

/-- The precomposed characters and their spelling. -/
def composed : List (Nat × List Nat) :=
  [(w! "ã", w! "\\tilde{a}"), (w! "ẽ", w! "\\tilde{e}"), (w! "ñ", w! "\\tilde{n}"),
   (w! "õ", w! "\\tilde{o}"), (w! "ũ", w! "\\tilde{u}"), (w! "ṽ", w! "\\tilde{v}"),
   (w! "Ã", w! "\\tilde{A}"), (w! "Ẽ", w! "\\tilde{E}"), (w! "Ñ", w! "\\tilde{N}"),
   (w! "Õ", w! "\\tilde{O}"), (w! "Ũ", w! "\\tilde{U}"), (w! "Ṽ", w! "\\tilde{V}"),
   (w! "â", w! "\\hat{a}"), (w! "ê", w! "\\hat{e}"), (w! "î", w! "\\hat{i}"),
   (w! "ô", w! "\\hat{o}"), (w! "Â", w! "\\hat{A}"), (w! "Ê", w! "\\hat{E}"),
   (w! "Î", w! "\\hat{I}"), (w! "Ô", w! "\\hat{O}"), (w! "Ŝ", w! "\\hat{S}")].map
    fun p => (p.1.headD 0, p.2)

/-- The accent of a combining mark. -/
def accentOf (c : Nat) : Option (List Nat) := accents.lookup c

/-- The spelling of a precomposed character. -/
def composedOf (c : Nat) : Option (List Nat) := composed.lookup c

theorem lookup_mem {t : List (Nat × List Nat)} {c : Nat} {s : List Nat}
    (h : t.lookup c = some s) : (c, s) ∈ t := by
  induction t with
  | nil => simp at h
  | cons p t ih =>
    obtain ⟨k, v⟩ := p
    rw [List.lookup_cons] at h
    cases hk : c == k
    · rw [hk] at h
      exact List.mem_cons_of_mem _ (ih h)
    · rw [hk] at h
      simp only [Option.some.injEq] at h
      simp only [beq_iff_eq] at hk
      simp [hk, h]

theorem lookup_none_of_lt {t : List (Nat × List Nat)} {c N : Nat}
    (h : ∀ p ∈ t, p.1 < N) (hc : N ≤ c) : t.lookup c = none := by
  rcases hl : t.lookup c with _ | s
  · rfl
  · have := h _ (lookup_mem hl)
    simp only at this
    omega

theorem lookup_append (c : Nat) (a b : List (Nat × List Nat)) :
    (a ++ b).lookup c = (a.lookup c).or (b.lookup c) := by
  induction a with
  | nil => simp
  | cons p a ih =>
    obtain ⟨k, v⟩ := p
    rw [List.cons_append, List.lookup_cons, List.lookup_cons]
    cases c == k
    · exact ih
    · simp

theorem greekCodes_small : ∀ p ∈ greekCodes, p.1 < 1024 := by decide +kernel

theorem greekCodes_nonempty : ∀ p ∈ greekCodes, p.2 ≠ [] := by decide +kernel

theorem names_ascii : ∀ p ∈ greekCodes, ∀ c ∈ p.2, c ≤ 0x7F := by decide +kernel

theorem lookup_ascii : ∀ c : Fin 128, greekOf c.val = none := by decide +kernel

theorem greekOf_ne {c : Nat} {s : List Nat} (h : greekOf c = some s) : s ≠ [] :=
  greekCodes_nonempty (c, s) (lookup_mem h)

/-- One step of the conversion. -/
def stepTable (c : Nat) : Option (List Nat) :=
  if isAscii c then none
  else if isLc c then lcEntry c
  else if isUc c then ucEntry c
  else none

theorem stepTable_small : ∀ c : Fin 1024, stepTable c.val = greekOf c.val := by
  decide +kernel

theorem stepTable_eq (c : Nat) : stepTable c = greekOf c := by
  by_cases h : c < 1024
  · exact stepTable_small ⟨c, h⟩
  · rw [greekOf, lookup_none_of_lt greekCodes_small (by omega)]
    have h1 : isAscii c = false := by simp [isAscii]; omega
    have h2 : isLc c = false := by simp [isLc]; omega
    have h3 : isUc c = false := by simp [isUc]; omega
    simp [stepTable, h1, h2, h3]

theorem lcEntry_some {c : Nat} (h : isLc c = true) : lcEntry c ≠ none := by
  have key : ∀ i : Fin 25, (lcTable[i.val]?).filter (!·.isEmpty) ≠ none := by decide +kernel
  simp only [isLc, Bool.and_eq_true, decide_eq_true_eq] at h
  rw [lcEntry]
  exact key ⟨c - 0x3B1, by omega⟩

theorem ucEntry_some {c : Nat} (h : isUc c = true) : ucEntry c ≠ none := by
  have key : ∀ i : Fin 25, i.val ≠ 17 → (ucTable[i.val]?).filter (!·.isEmpty) ≠ none := by
    decide +kernel
  simp only [isUc, Bool.and_eq_true, decide_eq_true_eq, bne_iff_ne, ne_eq] at h
  rw [ucEntry]
  exact key ⟨c - 0x391, by omega⟩ (by simp only; omega)

theorem accents_small : ∀ p ∈ accents, p.1 < 0x400 := by decide +kernel

theorem accents_nonempty : ∀ p ∈ accents, p.2 ≠ [] := by decide +kernel

theorem accentOf_ne {c : Nat} {s : List Nat} (h : accentOf c = some s) : s ≠ [] :=
  accents_nonempty (c, s) (lookup_mem h)

theorem markMacro_small : ∀ c : Fin 0x400, macroOf (some c.val) = accentOf c.val := by
  decide +kernel

theorem macroOf_eq (c : Nat) : macroOf (some c) = accentOf c := by
  by_cases h : c < 0x400
  · exact markMacro_small ⟨c, h⟩
  · rw [accentOf, lookup_none_of_lt accents_small (by omega)]
    simp only [macroOf, markMacro]
    have h1 : isAscii c = false := by simp [isAscii]; omega
    simp only [h1, Bool.not_false, if_true]
    rw [if_neg (by omega), if_neg (by omega), if_neg (by omega), if_neg (by omega),
      if_neg (by omega)]

theorem composed_eq : composed = tildeTable ++ hatTable := by decide +kernel

theorem tables_disjoint : ∀ p ∈ tildeTable, hatTable.lookup p.1 = none := by decide +kernel

/-- What the two blocks of look-ups append. -/
theorem tables_eq (c : Nat) :
    (tildeTable.lookup c = composedOf c ∧ hatTable.lookup c = none) ∨
      (tildeTable.lookup c = none ∧ hatTable.lookup c = composedOf c) := by
  rw [composedOf, composed_eq, lookup_append]
  rcases hg : tildeTable.lookup c with _ | s
  · right; simp
  · left; exact ⟨by simp, tables_disjoint (c, s) (lookup_mem hg)⟩

theorem composed_nonempty : ∀ p ∈ composed, p.2 ≠ [] := by decide +kernel

theorem composedOf_ne {c : Nat} {s : List Nat} (h : composedOf c = some s) : s ≠ [] :=
  composed_nonempty (c, s) (lookup_mem h)

theorem composed_nonascii : ∀ c : Fin 128, composedOf c.val = none := by decide +kernel

theorem greekOf_ascii {x c : Nat} {s : List Nat} (h : greekOf x = some s) (hc : c ∈ s) :
    c ≤ 0x7F :=
  names_ascii (x, s) (lookup_mem h) c hc

end SeQuant.Latex
