import Verif.CmdLine.Model
import Mathlib.Data.List.Nodup
import Mathlib.Data.List.Range
import Mathlib.Tactic.Common
/-!
# C120: the command line
-/
namespace Rep.CmdLine

/-! ### Specification -/
namespace Spec

/-- The text is the option, alone or with a parameter. -/
def IsOption (o s : Str) : Prop := s = o ∨ ∃ p, s = o ++ '=' :: p

/-- The parameters of all the occurrences of an option and the other arguments. -/
inductive Params (o : Str) : List Str → List Str → List Str → Prop
  | nil : Params o [] [] []
  | other {s r ps qs} : ¬ IsOption o s → Params o r ps qs → Params o (s :: r) ps (s :: qs)
  | next {p r ps qs} : Params o r ps qs → Params o (o :: p :: r) (p :: ps) qs
  | joined {p r ps qs} : Params o r ps qs → Params o ((o ++ '=' :: p) :: r) (p :: ps) qs

/-- What a user wants of the interpreter. -/
inductive Item
  | batch | interp | noRc | debug
  | call (short : Bool) (f : Str)
  | load (short : Bool) (f : Str)
  | file (f : Str)
  | check | help | version
  | quit (short : Bool)
  deriving DecidableEq

/-- How it is written. -/
def Item.text : Item → List Str
  | .batch => ["--batch".toList]
  | .interp => ["--interp".toList]
  | .noRc => ["--no-rc".toList]
  | .debug => ["--debug".toList]
  | .call s f => [if s then "-f".toList else "--call".toList, f]
  | .load s f => [if s then "-l".toList else "--load".toList, f]
  | .file f => [f]
  | .check => ["--check".toList]
  | .help => ["--help".toList]
  | .version => ["--version".toList]
  | .quit s => [if s then "-q".toList else "--quit".toList]

/-- What is done, in order. -/
def Item.acts : List Item → List Act
  | [] => []
  | .call _ f :: r => .call f :: acts r
  | .load _ f :: r => .load f :: acts r
  | .file f :: r => .file f :: acts r
  | .check :: _ => [.check]
  | .help :: _ => [.help]
  | .version :: _ => [.version]
  | .quit _ :: _ => [.quit]
  | _ :: r => acts r

def Item.isFlag : Item → Bool
  | .batch | .interp | .noRc | .debug => true
  | _ => false

/-- The four flags. -/
def flags : List Str := ["--batch".toList, "--interp".toList, "--no-rc".toList, "--debug".toList]

/-- The other words that have a meaning. -/
def words : List Str := ["--call".toList, "-f".toList, "--load".toList, "-l".toList, "--check".toList, "--help".toList, "--version".toList,
  "--quit".toList, "-q".toList]

/-- Names of functions and files which can't be taken for something else. -/
def Item.Clear : Item → Prop
  | .call _ f | .load _ f => ∀ o ∈ flags, ¬ IsOption o f
  | .file f => f ∉ words ∧ ∀ o ∈ flags, ¬ IsOption o f
  | _ => True

end Spec

open Spec

/-! ### One option -/

theorem isOpt_iff (o s : Str) : isOpt o s = true ↔ IsOption o s := by
  unfold isOpt IsOption
  rw [Bool.and_eq_true, List.isPrefixOf_iff_prefix]
  constructor
  · rintro ⟨⟨t, rfl⟩, h⟩
    rw [List.drop_left] at h
    cases t with
    | nil => exact Or.inl (by simp)
    | cons c p =>
      simp only [beq_iff_eq] at h
      exact Or.inr ⟨p, by rw [h]⟩
  · rintro (rfl | ⟨p, rfl⟩)
    · exact ⟨List.prefix_refl _, by simp⟩
    · exact ⟨List.prefix_append _ _, by simp⟩

theorem isOpt_false {o s : Str} (h : ¬ IsOption o s) : isOpt o s = false := by
  rw [← Bool.not_eq_true, isOpt_iff]
  exact h

theorem delq_mid {p r : List Arg} {a : Arg} (h : ((p ++ a :: r).map Prod.fst).Nodup) : delq a.1 (p ++ a :: r) = p ++ r := by
  rw [List.map_append, List.map_cons, List.nodup_append] at h
  obtain ⟨_, h2, h3⟩ := h
  rw [List.nodup_cons] at h2
  unfold delq
  rw [List.filter_append, List.filter_cons_of_neg (by simp), List.filter_eq_self.mpr, List.filter_eq_self.mpr]
  · intro b hb
    have : b.1 ≠ a.1 := fun e => h2.1 (e ▸ List.mem_map.mpr ⟨b, hb, rfl⟩)
    simpa using this
  · intro b hb
    have := h3 b.1 (List.mem_map.mpr ⟨b, hb, rfl⟩) a.1 (List.mem_cons_self ..)
    simpa using this

theorem scan_skip {o : Str} {needs : Bool} {p r all : List Arg} (h : ∀ b ∈ p, ¬ IsOption o b.2) : scan o needs (p ++ r) all = scan o needs r all := by
  induction p with
  | nil => rfl
  | cons b p ih =>
    rw [List.cons_append, scan, isOpt_false (h b (List.mem_cons_self ..))]
    simp only [Bool.false_eq_true, if_false]
    exact ih fun b hb => h b (List.mem_cons_of_mem _ hb)

/-- C120, an option that wasn't given: it isn't found, and nothing changes. -/
theorem C120_absent (o : Str) (needs : Bool) (args : List Arg) (h : ∀ b ∈ args, ¬ IsOption o b.2) : getOption o needs args = (.absent, args) := by
  have := scan_skip (r := []) (all := args) (needs := needs) h
  rw [List.append_nil] at this
  exact this

/-- C120, an option without parameter: the first occurrence is taken out, and only it. -/
theorem C120_flag (o : Str) (p r : List Arg) (a : Arg) (hd : ((p ++ a :: r).map Prod.fst).Nodup) (hp : ∀ b ∈ p, ¬ IsOption o b.2) (ha : IsOption o a.2) :
    getOption o false (p ++ a :: r) = (.found none, p ++ r) := by
  rw [getOption, scan_skip hp, scan, (isOpt_iff o a.2).mpr ha]
  simp only [if_true, Bool.false_eq_true, if_false, delq_mid hd]

/-- C120, an option with its parameter behind `=`. -/
theorem C120_joined (o : Str) (p r : List Arg) (i : Nat) (q : Str) (hd : ((p ++ (i, o ++ '=' :: q) :: r).map Prod.fst).Nodup) (hp : ∀ b ∈ p, ¬ IsOption o b.2) :
    getOption o true (p ++ (i, o ++ '=' :: q) :: r) = (.found (some q), p ++ r) := by
  rw [getOption, scan_skip hp, scan, (isOpt_iff o _).mpr (Or.inr ⟨q, rfl⟩)]
  simp only [if_true, List.drop_left]
  rw [delq_mid (a := (i, o ++ '=' :: q)) hd]

/-- C120, an option with its parameter in the next argument: both are taken out, and only they. -/
theorem C120_next (o : Str) (p r : List Arg) (i : Nat) (b : Arg) (hd : ((p ++ (i, o) :: b :: r).map Prod.fst).Nodup) (hp : ∀ b ∈ p, ¬ IsOption o b.2) :
    getOption o true (p ++ (i, o) :: b :: r) = (.found (some b.2), p ++ r) := by
  rw [getOption, scan_skip hp, scan, (isOpt_iff o _).mpr (Or.inl rfl)]
  simp only [if_true, List.drop_length]
  have h1 := delq_mid (a := (i, o)) hd
  simp only at h1
  rw [h1, delq_mid]
  refine List.Nodup.sublist ?_ hd
  exact List.Sublist.map _ (List.Sublist.append_left (List.sublist_cons_self _ _) _)

/-- C120, an option whose parameter is missing: that is an error. -/
theorem C120_missing (o : Str) (p : List Arg) (i : Nat) (hd : ((p ++ [(i, o)]).map Prod.fst).Nodup) (hp : ∀ b ∈ p, ¬ IsOption o b.2) :
    getOption o true (p ++ [(i, o)]) = (.missing, p) := by
  rw [getOption, scan_skip hp, scan, (isOpt_iff o _).mpr (Or.inl rfl)]
  simp only [if_true, List.drop_length]
  have h1 := delq_mid (a := (i, o)) hd
  simp only at h1
  rw [h1, List.append_nil]

/-- C120, an option that may occur several times: asking until it isn't found gives the parameters in order, and leaves the other arguments in order. -/
theorem C120_all {o : Str} {ss ps qs : List Str} (h : Params o ss ps qs) (args : List Arg) (hs : args.map Prod.snd = ss) (hd : (args.map Prod.fst).Nodup) :
    ∃ rest, collect o (args.length + 1) args = (ps, false, rest) ∧ rest.map Prod.snd = qs := by
  have main : ∀ {ss ps qs : List Str}, Params o ss ps qs → ∀ (p args : List Arg) (k : Nat), args.map Prod.snd = ss → ((p ++ args).map Prod.fst).Nodup →
      (∀ b ∈ p, ¬ IsOption o b.2) → args.length < k → ∃ rest, collect o k (p ++ args) = (ps, false, rest) ∧ rest.map Prod.snd = p.map Prod.snd ++ qs := by
    intro ss ps qs h
    induction h with
    | nil =>
      intro p args k hs hd hp hk
      obtain ⟨k, rfl⟩ := Nat.exists_eq_succ_of_ne_zero (show k ≠ 0 by omega)
      have : args = [] := by simpa using hs
      subst this
      refine ⟨p, ?_, by simp⟩
      rw [List.append_nil, collect, C120_absent o true p hp]
    | @other s r ps qs hn _ ih =>
      intro p args k hs hd hp hk
      cases args with
      | nil => cases hs
      | cons a args =>
        rw [List.map_cons] at hs
        injection hs with h1 h2
        obtain ⟨rest, e1, e2⟩ := ih (p ++ [a]) args k h2 (by simpa using hd) (by
          intro b hb
          rcases List.mem_append.mp hb with hb | hb
          · exact hp b hb
          · rw [List.mem_singleton.mp hb, h1]; exact hn) (by rw [List.length_cons] at hk; omega)
        refine ⟨rest, ?_, ?_⟩
        · rw [← e1]; simp
        · rw [e2]; simp [h1]
    | @next q r ps qs _ ih =>
      intro p args k hs hd hp hk
      match args, hs, hd, hk with
      | [], hs, _, _ => cases hs
      | [_], hs, _, _ => simp at hs
      | (i, a) :: b :: args, hs, hd, hk =>
        simp only [List.map_cons, List.cons.injEq] at hs
        obtain ⟨rfl, h2, h3⟩ := hs
        obtain ⟨k, rfl⟩ := Nat.exists_eq_succ_of_ne_zero (show k ≠ 0 by omega)
        obtain ⟨rest, e1, e2⟩ := ih p args k h3 (by
          refine List.Nodup.sublist (List.Sublist.map _ (List.Sublist.append_left ?_ _)) hd
          exact (List.sublist_cons_self _ _).trans (List.sublist_cons_self _ _)) hp (by simp only [List.length_cons] at hk; omega)
        refine ⟨rest, ?_, e2⟩
        rw [collect, C120_next a p args i b hd hp]
        simp only [e1, h2]
    | @joined q r ps qs _ ih =>
      intro p args k hs hd hp hk
      match args, hs, hd, hk with
      | [], hs, _, _ => cases hs
      | (i, a) :: args, hs, hd, hk =>
        simp only [List.map_cons, List.cons.injEq] at hs
        obtain ⟨rfl, h3⟩ := hs
        obtain ⟨k, rfl⟩ := Nat.exists_eq_succ_of_ne_zero (show k ≠ 0 by omega)
        obtain ⟨rest, e1, e2⟩ := ih p args k h3 (by
          refine List.Nodup.sublist (List.Sublist.map _ (List.Sublist.append_left ?_ _)) hd
          exact List.sublist_cons_self _ _) hp (by simp only [List.length_cons] at hk; omega)
        refine ⟨rest, ?_, e2⟩
        rw [collect, C120_joined o p args i q hd hp]
        simp only [e1]
  obtain ⟨rest, e1, e2⟩ := main h [] args (args.length + 1) hs hd (fun b hb => (by cases hb)) (by omega)
  exact ⟨rest, e1, by simpa using e2⟩

/-! ### The interpreter -/

/-- The text of a flag. -/
def flagText : Item → Str
  | .batch => sBatch
  | .interp => sInterp
  | .noRc => sNoRc
  | .debug => sDebug
  | _ => []

theorem words_clear : ∀ w ∈ words, ∀ o ∈ flags, isOpt o w = false := by decide +kernel
theorem flags_clear : ∀ w ∈ flags, ∀ o ∈ flags, w ≠ o → isOpt o w = false := by decide +kernel

/-- Only a flag is taken for it. -/
theorem clear_text {g : Item} (hg : g.isFlag = true) {it : Item} (hc : it.Clear) (hne : it ≠ g) : ∀ s ∈ it.text, ¬ IsOption (flagText g) s := by
  have hgf : flagText g ∈ flags := by cases g <;> first | (cases hg; done) | decide +kernel
  have word : ∀ w ∈ words, ¬ IsOption (flagText g) w := by
    intro w hw h
    have := words_clear w hw _ hgf
    rw [(isOpt_iff _ _).mpr h] at this
    cases this
  have flag : ∀ it : Item, it.isFlag = true → it ≠ g → ¬ IsOption (flagText g) (flagText it) := by
    intro it hi hn h
    have h1 : flagText it ∈ flags := by cases it <;> first | (cases hi; done) | decide +kernel
    have h2 : flagText it ≠ flagText g := by
      cases it <;> first | (cases hi; done) | (cases g <;> first | (cases hg; done) | exact absurd rfl hn | decide +kernel)
    have := flags_clear _ h1 _ hgf h2
    rw [(isOpt_iff _ _).mpr h] at this
    cases this
  cases it with
  | batch => intro s hs; rw [List.mem_singleton.mp hs]; exact flag .batch rfl hne
  | interp => intro s hs; rw [List.mem_singleton.mp hs]; exact flag .interp rfl hne
  | noRc => intro s hs; rw [List.mem_singleton.mp hs]; exact flag .noRc rfl hne
  | debug => intro s hs; rw [List.mem_singleton.mp hs]; exact flag .debug rfl hne
  | call b f =>
    intro s hs
    rcases List.mem_cons.mp hs with e | e
    · rw [e]; exact word _ (by cases b <;> decide +kernel)
    · rw [List.mem_singleton.mp e]; exact hc _ hgf
  | load b f =>
    intro s hs
    rcases List.mem_cons.mp hs with e | e
    · rw [e]; exact word _ (by cases b <;> decide +kernel)
    · rw [List.mem_singleton.mp e]; exact hc _ hgf
  | file f => intro s hs; rw [List.mem_singleton.mp hs]; exact hc.2 _ hgf
  | check => intro s hs; rw [List.mem_singleton.mp hs]; exact word _ (by decide +kernel)
  | help => intro s hs; rw [List.mem_singleton.mp hs]; exact word _ (by decide +kernel)
  | version => intro s hs; rw [List.mem_singleton.mp hs]; exact word _ (by decide +kernel)
  | quit b => intro s hs; rw [List.mem_singleton.mp hs]; exact word _ (by cases b <;> decide +kernel)

theorem flag_text {g : Item} (hg : g.isFlag = true) : g.text = [flagText g] := by
  cases g <;> first | (cases hg; done) | rfl

/-- Looking for a flag takes it out of the items. -/
theorem take_flag {g : Item} (hg : g.isFlag = true) (items : List Item) (hc : ∀ it ∈ items, it.Clear) (h1 : items.count g ≤ 1) (args : List Arg)
    (ha : args.map Prod.snd = items.flatMap Item.text) (hd : (args.map Prod.fst).Nodup) :
    ((getOption (flagText g) false args).1 != .absent) = decide (g ∈ items) ∧
    (getOption (flagText g) false args).2.map Prod.snd = (items.filter (fun it => it != g)).flatMap Item.text ∧
    ((getOption (flagText g) false args).2.map Prod.fst).Nodup := by
  have clear : ∀ (l : List Item), (∀ it ∈ l, it ∈ items) → g ∉ l → ∀ b : List Arg, b.map Prod.snd = l.flatMap Item.text → ∀ x ∈ b, ¬ IsOption (flagText g) x.2 := by
    intro l hl hgl b hb x hx
    have : x.2 ∈ l.flatMap Item.text := hb ▸ List.mem_map.mpr ⟨x, hx, rfl⟩
    obtain ⟨it, hit, hs⟩ := List.mem_flatMap.mp this
    exact clear_text hg (hc it (hl it hit)) (fun e => hgl (e ▸ hit)) _ hs
  have keep : ∀ l : List Item, g ∉ l → l.filter (fun it => it != g) = l := by
    intro l hl
    rw [List.filter_eq_self]
    intro a ha
    have : a ≠ g := fun e => hl (e ▸ ha)
    simpa using this
  by_cases hm : g ∈ items
  · obtain ⟨p, r, rfl⟩ := List.append_of_mem hm
    have hcount : p.count g = 0 ∧ r.count g = 0 := by
      rw [List.count_append, List.count_cons_self] at h1
      omega
    have hp : g ∉ p := List.count_eq_zero.mp hcount.1
    have hr : g ∉ r := List.count_eq_zero.mp hcount.2
    rw [List.flatMap_append, List.flatMap_cons, flag_text hg, List.map_eq_append_iff] at ha
    obtain ⟨a1, a2, rfl, e1, e2⟩ := ha
    cases a2 with
    | nil => cases e2
    | cons a a2 =>
      rw [List.map_cons, List.cons_append, List.nil_append] at e2
      injection e2 with e2 e3
      rw [C120_flag (flagText g) a1 a2 a hd (clear p (fun it h => List.mem_append_left _ h) hp a1 e1) (Or.inl e2)]
      refine ⟨?_, ?_, ?_⟩
      · simp
      · rw [List.map_append, e1, e3, List.filter_append, List.filter_cons_of_neg (by simp), keep p hp, keep r hr, List.flatMap_append]
      · refine List.Nodup.sublist (List.Sublist.map _ (List.Sublist.append_left (List.sublist_cons_self _ _) _)) hd
  · rw [C120_absent _ _ _ (clear items (fun _ h => h) hm args ha), keep items hm]
    exact ⟨by simp [hm], ha, hd⟩

def ends : Item → Bool
  | .check | .help | .version | .quit _ => true
  | _ => false

theorem parse_items (items : List Item) (hc : ∀ it ∈ items, it.Clear) (hf : ∀ it ∈ items, it.isFlag = false) :
    parseOptions (items.flatMap Item.text) = (Item.acts items, (Item.acts items).any (fun a => match a with | .file _ => true | _ => false), false) := by
  induction items with
  | nil => simp [parseOptions, Item.acts]
  | cons it r ih =>
    have ih := ih (fun x hx => hc x (List.mem_cons_of_mem _ hx)) (fun x hx => hf x (List.mem_cons_of_mem _ hx))
    have h0 := hf it (List.mem_cons_self ..)
    have hcl := hc it (List.mem_cons_self ..)
    rw [List.flatMap_cons]
    cases it with
    | batch => cases h0
    | interp => cases h0
    | noRc => cases h0
    | debug => cases h0
    | call b f =>
      have h : (if b then "-f".toList else "--call".toList) = sCall ∨ (if b then "-f".toList else "--call".toList) = sF := by cases b <;> decide +kernel
      simp only [Item.text, List.cons_append, List.nil_append]
      rw [parseOptions, if_pos h]
      simp only [ih, Item.acts, List.any_cons, Bool.false_or]
    | load b f =>
      have h : (if b then "-l".toList else "--load".toList) = sLoad ∨ (if b then "-l".toList else "--load".toList) = sL := by cases b <;> decide +kernel
      have h' : ¬ ((if b then "-l".toList else "--load".toList) = sCall ∨ (if b then "-l".toList else "--load".toList) = sF) := by cases b <;> decide +kernel
      simp only [Item.text, List.cons_append, List.nil_append]
      rw [parseOptions, if_neg h', if_pos h]
      simp only [ih, Item.acts, List.any_cons, Bool.false_or]
    | file f =>
      have hw : ∀ w ∈ words, f ≠ w := fun w hw e => hcl.1 (e ▸ hw)
      have a1 : ¬ (f = sCall ∨ f = sF) := not_or.mpr ⟨hw _ (by decide +kernel), hw _ (by decide +kernel)⟩
      have a2 : ¬ (f = sLoad ∨ f = sL) := not_or.mpr ⟨hw _ (by decide +kernel), hw _ (by decide +kernel)⟩
      have a3 : ¬ (f = sQuit ∨ f = sQ) := not_or.mpr ⟨hw _ (by decide +kernel), hw _ (by decide +kernel)⟩
      have a4 : f ≠ sCheck := hw _ (by decide +kernel)
      have a5 : f ≠ sHelp := hw _ (by decide +kernel)
      have a6 : f ≠ sVersion := hw _ (by decide +kernel)
      simp only [Item.text, List.cons_append, List.nil_append]
      rw [parseOptions.eq_def]
      dsimp only
      rw [if_neg a1, if_neg a2, if_neg a4, if_neg a5, if_neg a6, if_neg a3]
      simp only [ih, Item.acts, List.any_cons, Bool.true_or]
    | check =>
      simp only [Item.text, List.cons_append, List.nil_append]
      rw [parseOptions.eq_def]
      dsimp only
      rw [if_neg (by decide +kernel), if_neg (by decide +kernel), if_pos (by decide +kernel)]
      simp [Item.acts]
    | help =>
      simp only [Item.text, List.cons_append, List.nil_append]
      rw [parseOptions.eq_def]
      dsimp only
      rw [if_neg (by decide +kernel), if_neg (by decide +kernel), if_neg (by decide +kernel), if_pos (by decide +kernel)]
      simp [Item.acts]
    | version =>
      simp only [Item.text, List.cons_append, List.nil_append]
      rw [parseOptions.eq_def]
      dsimp only
      rw [if_neg (by decide +kernel), if_neg (by decide +kernel), if_neg (by decide +kernel), if_neg (by decide +kernel), if_pos (by decide +kernel)]
      simp [Item.acts]
    | quit b =>
      have h : (if b then "-q".toList else "--quit".toList) = sQuit ∨ (if b then "-q".toList else "--quit".toList) = sQ := by cases b <;> decide +kernel
      simp only [Item.text, List.cons_append, List.nil_append]
      rw [parseOptions.eq_def]
      dsimp only
      rw [if_neg (by cases b <;> decide +kernel), if_neg (by cases b <;> decide +kernel), if_neg (by cases b <;> decide +kernel),
        if_neg (by cases b <;> decide +kernel), if_neg (by cases b <;> decide +kernel), if_pos h]
      simp [Item.acts]

theorem acts_filter (items : List Item) (q : Item → Bool) (hq : ∀ it, q it = false → it.isFlag = true) : Item.acts (items.filter q) = Item.acts items := by
  induction items with
  | nil => rfl
  | cons it r ih =>
    cases hqi : q it with
    | false =>
      have := hq it hqi
      rw [List.filter_cons_of_neg (by simp [hqi]), ih]
      cases it <;> first | (cases this; done) | rfl
    | true =>
      rw [List.filter_cons_of_pos hqi]
      cases it <;> simp [Item.acts, ih]

/-- C120, the interpreter: it does what the items say, in order, until one ends it; the flags count wherever they stand. Missing are flags that are
given twice, and names that look like options. -/
theorem C120_interpreter_partial (items : List Item) (hc : ∀ it ∈ items, it.Clear) (h1 : ∀ g : Item, g.isFlag = true → items.count g ≤ 1) :
    start (number (items.flatMap Item.text)) =
      ⟨decide (Item.batch ∈ items) || (Item.acts items).any (fun a => match a with | .file _ => true | _ => false), decide (Item.interp ∈ items),
       decide (Item.noRc ∈ items), decide (Item.debug ∈ items), Item.acts items, false⟩ := by
  have n1 : (number (items.flatMap Item.text)).map Prod.snd = items.flatMap Item.text := by
    unfold number
    rw [List.map_snd_zip]
    simp
  have n2 : ((number (items.flatMap Item.text)).map Prod.fst).Nodup := by
    unfold number
    rw [List.map_fst_zip (by simp)]
    exact List.nodup_range
  generalize number (items.flatMap Item.text) = args at n1 n2
  have cnt : ∀ (l : List Item) (q : Item → Bool) (g : Item), l.count g ≤ 1 → (l.filter q).count g ≤ 1 := fun l q g h =>
    Nat.le_trans (List.Sublist.count_le g List.filter_sublist) h
  have clr : ∀ (l : List Item) (q : Item → Bool), (∀ it ∈ l, it.Clear) → ∀ it ∈ l.filter q, it.Clear := fun l q h it hit => h it (List.mem_of_mem_filter hit)
  obtain ⟨b1, b2, b3⟩ := take_flag (g := .batch) rfl items hc (h1 _ rfl) args n1 n2
  obtain ⟨i1, i2, i3⟩ := take_flag (g := .interp) rfl _ (clr _ _ hc) (cnt _ _ _ (h1 _ rfl)) _ b2 b3
  obtain ⟨r1, r2, r3⟩ := take_flag (g := .noRc) rfl _ (clr _ _ (clr _ _ hc)) (cnt _ _ _ (cnt _ _ _ (h1 _ rfl))) _ i2 i3
  obtain ⟨d1, d2, d3⟩ := take_flag (g := .debug) rfl _ (clr _ _ (clr _ _ (clr _ _ hc))) (cnt _ _ _ (cnt _ _ _ (cnt _ _ _ (h1 _ rfl)))) _ r2 r3
  have hp := parse_items _ (clr _ (fun it => it != Item.debug) (clr _ (fun it => it != Item.noRc) (clr _ (fun it => it != Item.interp) (clr _ (fun it => it != Item.batch) hc)))) (by
    intro it hit
    simp only [List.mem_filter, bne_iff_ne] at hit
    cases it <;> first | rfl | (exfalso; simp at hit; done))
  have ha : Item.acts ((((items.filter (fun it => it != Item.batch)).filter (fun it => it != Item.interp)).filter (fun it => it != Item.noRc)).filter
      (fun it => it != Item.debug)) = Item.acts items := by
    have hq : ∀ g : Item, g.isFlag = true → ∀ it : Item, (it != g) = false → it.isFlag = true := by
      intro g hg it h
      have : it = g := by simpa using h
      rw [this]; exact hg
    rw [acts_filter _ _ (hq _ rfl), acts_filter _ _ (hq _ rfl), acts_filter _ _ (hq _ rfl), acts_filter _ _ (hq _ rfl)]
  rw [ha] at hp
  simp only [flagText] at b1 b2 b3 i1 i2 i3 r1 r2 r3 d1 d2 d3
  unfold start
  simp only [d2, hp, b1, i1, r1, d1]
  congr 1
  · simp [List.mem_filter]
  · simp [List.mem_filter]
  · simp [List.mem_filter]

/-- C120 is wrong of flags that are given twice: the second is taken for a file to be loaded. -/
theorem C120_twice_violated : (start (number [sInterp, sInterp])).acts = [.file sInterp] := by decide +kernel

/-- C120 is wrong of names that look like flags: the flag is set, and what follows is taken for the name. -/
theorem C120_name_violated : start (number [sL, sDebug, sF, ['g']]) = ⟨true, false, false, true, [.load sF, .file ['g']], false⟩ := by decide +kernel

/-! ### Examples -/

def x : Str := "x".toList
def fooJl : Str := "foo.jl".toList

example : start (number [sInterp, sL, x, fooJl, sBatch, sQ, x]) = ⟨true, true, false, false, [.load x, .file fooJl, .quit], false⟩ := by decide +kernel

example : ∀ it ∈ [Item.interp, .load true x, .file fooJl, .batch, .quit true], it.Clear := by
  have h : ∀ s ∈ [x, fooJl], ∀ o ∈ flags, isOpt o s = false := by decide +kernel
  have h' : ∀ s ∈ [x, fooJl], ∀ o ∈ flags, ¬ IsOption o s := by
    intro s hs o ho hi
    have := h s hs o ho
    rw [(isOpt_iff _ _).mpr hi] at this
    cases this
  intro it hit
  simp only [List.mem_cons, List.not_mem_nil, or_false] at hit
  rcases hit with rfl | rfl | rfl | rfl | rfl
  · trivial
  · exact h' _ (by simp)
  · exact ⟨by decide +kernel, h' _ (by simp)⟩
  · trivial
  · trivial

example : collect "-I".toList 5 (number ["-I".toList, x, fooJl, "-I=y".toList]) = ([x, ['y']], false, [(2, fooJl)]) := by decide +kernel

example : Params "-I".toList ["-I".toList, x, fooJl, "-I".toList ++ '=' :: ['y']] [x, ['y']] [fooJl] := by
  refine .next (.other ?_ (.joined .nil))
  rw [← isOpt_iff]
  decide +kernel

end Rep.CmdLine
