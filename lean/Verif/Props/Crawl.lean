import Verif.Proofs.Crawl
import Verif.Examples.Crawl
import Verif.Props.VersionedRun
/-!
C73: what a versioned storage takes for the current code is the current code.
-/
namespace Verif.Props

open Verif PyProc

variable {w : PyProc} {fuel : Nat} {strict skip : Bool} {mods : List String} {parts : DepKey → DKey} {enc : DKey → DepKey}
  {topology : Dict DepKey TNode} {cs : CodeState}

/-- C73: a function that the storage knows is taken as what its name now stands for, with all decorators removed; wherever else it appears. -/
theorem C73_known_function (henc : Function.Injective enc) (hn : topology.keys.Nodup)
    (h : w.guessCodeState fuel strict skip mods parts enc topology = .ok cs) {k : DepKey} {r : Option String} {rt0 : String}
    (hk : (k, TNode.callable r rt0) ∈ topology) {a : Addr} (ha : Denotes w (parts k).1 (splitDots (parts k).2) a) {s rt : String}
    (hf : FunctionAt w a s rt) : cs.get? k = some (.callable (some s) rt) := by
  obtain ⟨n', h1, h2⟩ := guess_known henc hn h hk
  unfold currentNode at h2
  rw [loadObj_denotes.2 ha] at h2
  rw [h1, callableNode_eq h2 hf]

/-- C73: a variable that the storage knows is taken with its current value. -/
theorem C73_known_variable (henc : Function.Injective enc) (hn : topology.keys.Nodup)
    (h : w.guessCodeState fuel strict skip mods parts enc topology = .ok cs) {k : DepKey} {g r : String}
    (hk : (k, TNode.globalVar g r) ∈ topology) {a : Addr} (ha : Denotes w (parts k).1 (splitDots (parts k).2) a) {g' : String}
    (hg : w.hash a = some g') : cs.get? k = some (.globalVar g' (w.repr a)) := by
  obtain ⟨n', h1, h2⟩ := guess_known henc hn h hk
  unfold currentNode at h2
  rw [loadObj_denotes.2 ha] at h2
  dsimp only [globalNode] at h2
  rw [hg] at h2
  cases h2
  exact h1

/-- C73 (partial: no function of the module is kept under another name than its own; functions in properties, class methods, and in classes
that inherit a constructor from another module are not found, see below): a function that the storage does not know yet is found, as what its
name stands for. -/
theorem C73_new_function_partial (henc : Function.Injective enc) (hn : topology.keys.Nodup)
    (h : w.guessCodeState fuel strict skip mods parts enc topology = .ok cs) {d : DKey} (hm : d.1 ∈ mods) (hk : enc d ∉ topology.keys)
    (ht : Tidy w d.1) (hu : ∀ m, ¬ Named w m d.2 w.unknown) (hp : InPlace w strict d) :
    ∃ a s rt, Denotes w d.1 (splitDots d.2) a ∧ FunctionAt w a s rt ∧ cs.get? (enc d) = some (.callable (some s) rt) := by
  obtain ⟨_, h2, h3⟩ := guess_crawled henc hn h
  obtain ⟨n, hc⟩ := Dict.mem_keys.1 (h3 d hm hp)
  rcases h2 _ _ hc with h | ⟨d', hm', he, ho⟩
  · exact absurd h hk
  · have := henc he
    subst this
    rcases ho with ⟨a, v, h1, h2, h3, h4⟩ | ⟨m, h1, _⟩
    · obtain ⟨s, rt, rfl, hf⟩ := callableNode_sound h4
      obtain ⟨a', h5, h6⟩ := ht a v _ h1 h2 h3 s rt hf
      exact ⟨a', s, rt, h5, h6, hc⟩
    · exact absurd h1 (hu m)

/-- C73: nothing else is taken for code: all that the storage does not know already is a function that names itself so, in this module, or the
placeholder for a class without a constructor and the like. -/
theorem C73_nothing_else (henc : Function.Injective enc) (hn : topology.keys.Nodup)
    (h : w.guessCodeState fuel strict skip mods parts enc topology = .ok cs) {k : DepKey} {n : TNode} (hc : cs.get? k = some n)
    (hk : k ∉ topology.keys) :
    ∃ d s rt, k = enc d ∧ d.1 ∈ mods ∧ n = .callable (some s) rt ∧
      ((∃ a v, Part w d.1 a ∧ Behind w a v ∧ Named w d.1 d.2 v ∧ FunctionAt w v s rt) ∨ (∃ m, Named w m d.2 w.unknown) ∧ FunctionAt w w.unknown s rt) := by
  rcases (guess_crawled henc hn h).2.1 _ _ hc with h | ⟨d, hm, he, ho⟩
  · exact absurd h hk
  · rcases ho with ⟨a, v, h1, h2, h3, h4⟩ | ⟨m, h1, h4⟩
    · obtain ⟨s, rt, rfl, hf⟩ := callableNode_sound h4
      exact ⟨d, s, rt, he, hm, rfl, .inl ⟨a, v, h1, h2, h3, hf⟩⟩
    · obtain ⟨s, rt, rfl, hf⟩ := callableNode_sound h4
      exact ⟨d, s, rt, he, hm, rfl, .inr ⟨⟨m, h1⟩, hf⟩⟩

/-- C73 (partial: all that is known is still there, global variables can be hashed, all functions of the modules have a source, no class
contains itself; without these it is false, see below): a context can be entered. -/
theorem C73_found_partial {s0 rt0 : String} {mo q : String} {s : Option String} {rt : String} {o : Option Addr}
    (hu : FunctionAt w w.unknown s0 rt0) (hu' : w.obj w.unknown = .func mo q s rt o)
    (hmain : "__main__" ∈ mods ∧ "__main__" ∈ w.modules.keys) (hp : ∀ p ∈ topology, Present w (parts p.1) p.2)
    (hi : strict = true → ∀ m ∈ mods, m ∈ w.modules.keys) (hr : ∀ m ∈ mods, m ∈ w.modules.keys → Readable w fuel strict m) :
    ∃ cs, w.guessCodeState fuel strict skip mods parts enc topology = .ok cs := by
  obtain ⟨rank, h1, h2⟩ := (hr _ hmain.1 hmain.2).depth
  exact guess_total (fun a => unwrap_total h2 fuel a (h1 a)) hu ⟨_, _, _, _, _, hu'⟩ hp hi hr

/-- C73 (partial: as above): what is found is the code, as C70 supposes. Keys of the placeholder do not count. -/
theorem C73_code_partial (henc : Function.Injective enc) (hn : topology.keys.Nodup) (hparts : ∀ p ∈ topology, enc (parts p.1) = p.1)
    (h : w.guessCodeState fuel strict skip mods parts enc topology = .ok cs) (hkept : ∀ p ∈ topology, Kept w (parts p.1) p.2)
    (ht : ∀ m ∈ mods, Tidy w m) (hplace : ∀ d, d.1 ∈ mods → Own w d → InPlace w strict d) {src : Source}
    (hsrc : CodeOf w enc (fun d => enc d ∈ topology.keys ∨ d.1 ∈ mods ∧ Own w d) src) :
    ∃ src' : Source, Crawled src' cs ∧ ∀ k, (∀ m ∈ mods, ∀ m' q, Named w m' q w.unknown → k ≠ enc (m, q)) → src' k = src k := by
  obtain ⟨g1, g2, g3⟩ := guess_crawled henc hn h
  classical
  refine ⟨fun k => if ∃ m ∈ mods, ∃ m' q, Named w m' q w.unknown ∧ k = enc (m, q) then cs.get? k else src k, ⟨g1, ?_, ?_⟩, ?_⟩
  · intro k n hk
    split
    · exact hk
    · next hno =>
      by_cases hmem : k ∈ topology.keys
      · obtain ⟨n0, hn0⟩ := Dict.mem_keys.1 hmem
        have hin : (k, n0) ∈ topology := Dict.mem_of_get? hn0
        obtain ⟨n', h1, h2⟩ := guess_known henc hn h hin
        rw [hk] at h1
        cases h1
        have he := hparts _ hin
        dsimp only at he
        have hS : enc (parts k) ∈ topology.keys := by rw [he]; exact hmem
        rcases currentNode_kept h2 (hkept _ hin) with ⟨a, s, rt, h1, h5, rfl⟩ | ⟨a, g, h1, h5, h3, rfl⟩
        · have := hsrc.fn (parts k) a s rt (.inl hS) h1 h5
          rwa [he] at this
        · have := hsrc.glob (parts k) a g (.inl hS) h1 h3 h5
          rwa [he] at this
      · rcases g2 _ _ hk with h | ⟨d, hm, rfl, ho⟩
        · exact absurd h hmem
        · rcases ho with ⟨a, v, h1, h2, h3, h4⟩ | ⟨m, h1, _⟩
          · obtain ⟨s, rt, rfl, hf⟩ := callableNode_sound h4
            obtain ⟨a', h5, h6⟩ := ht _ hm a v _ h1 h2 h3 s rt hf
            exact hsrc.fn d a' s rt (.inr ⟨hm, a, v, h1, h2, h3⟩) h5 h6
          · exact absurd ⟨d.1, hm, m, d.2, h1, rfl⟩ hno
  · intro k text rt hk
    split at hk
    · exact Dict.mem_keys.2 ⟨_, hk⟩
    · obtain ⟨d, a, hS, rfl, _, _⟩ := hsrc.only k text rt hk
      rcases hS with hS | ⟨hm, hown⟩
      · obtain ⟨n0, hn0⟩ := Dict.mem_keys.1 hS
        obtain ⟨n', h1, _⟩ := guess_known henc hn h (Dict.mem_of_get? hn0)
        exact Dict.mem_keys.2 ⟨n', h1⟩
      · exact g3 d hm (hplace d hm hown)
  · intro k hk
    dsimp only
    rw [if_neg]
    rintro ⟨m, hm, m', q, h1, h2⟩
    exact hk m hm m' q h1 h2

/-! ### a program -/

/-- `m.py`: an op `f`, a function `g` with a decorator, a class `C` with a method and a static method, a variable `G` -/
def objsC : List PyObj :=
  [.func "mandala.deps.utils" "unknown_function" (some "def unknown_function") "bu" none, .other false,
   .func "m" "f" (some "def f") "bf" none, .op 2,
   .func "m" "g" (some "def g") "bg" none, .func "m" "g" (some "def g") "decorator" (some 4),
   .func "m" "C.go" (some "def go") "bgo" none, .func "m" "C.st" (some "def st") "bst" none, .wrapping .static 7,
   .cls "m" [("go", 6), ("st", 8)] [], .other false]

def worldC : PyProc := mkWorld objsC [] [("__main__", []), ("m", [("f", 3), ("g", 5), ("C", 9), ("G", 10)])]

def keysC : List DKey := [("m", "f"), ("m", "g"), ("m", "C.go"), ("m", "C.st"), ("m", "G")]

def partsC (k : DepKey) : DKey := (keysC.find? fun d => encD d = k).getD ("", "")

/-- `f` and `G` are known, `f` with an older source -/
def knownC : Dict DepKey TNode := [(encD ("m", "f"), .callable (some "def f # old") "b0"), (encD ("m", "G"), .globalVar "0" "value")]

/-- What is found. -/
example : worldC.guessCodeState 10 false true ["__main__", "m"] partsC encD knownC = .ok
    [(encD ("m", "f"), .callable (some "def f") "bf"), (encD ("m", "G"), .globalVar "10" "value"), (encD ("m", "g"), .callable (some "def g") "bg"),
     (encD ("m", "unknown_function"), .callable (some "def unknown_function") "bu"),
     (encD ("m", "C.go"), .callable (some "def go") "bgo"), (encD ("m", "C.st"), .callable (some "def st") "bst")] := by
  decide +kernel

theorem partC {a : Addr} (h : Part worldC "m" a) : a ∈ [3, 5, 9, 10, 6, 8] := by
  refine part_mem (fun d hd => ?_) ?_ h
  · have : worldC.modules.get? "m" = some [("f", 3), ("g", 5), ("C", 9), ("G", 10)] := by decide +kernel
    rw [this] at hd
    cases hd
    decide +kernel
  · decide +kernel

theorem unwrapC (a : Addr) : ∃ c, worldC.unwrap 10 a = .ok c :=
  unwrap_total (rank := fun a => if a = 9 then 2 else if a = 5 ∨ a = 8 then 1 else 0) (m := "m") (fun a b h => by
    have hb := mem_insideB h
    by_cases ha : a < 11
    · exact (show ∀ a < 11, ∀ b ∈ insideB worldC "m" a, (if b = 9 then 2 else if b = 5 ∨ b = 8 then 1 else 0) < if a = 9 then 2 else if a = 5 ∨ a = 8 then 1 else 0 by
        decide +kernel) a ha b hb
    · rw [show worldC = mkWorld objsC [] _ from rfl, insideB_none (show objsC.length ≤ a by exact Nat.le_of_not_lt ha)] at hb
      cases hb) 10 a (by split <;> [skip; split] <;> decide)

theorem tidyC : Tidy worldC "m" := tidy_of (fuel := 10) (fun _ => partC) (by decide +kernel)

theorem nothingC {a : Addr} : ¬ Part worldC "__main__" a := by
  intro h
  have := part_mem (l := []) (fun d hd => by
    have : worldC.modules.get? "__main__" = some [] := by decide +kernel
    rw [this] at hd
    cases hd
    exact fun _ h => by cases h) (fun _ h => by cases h) h
  cases this

theorem searchedC {a : Addr} (h : a ∈ [3, 5, 9, 10, 6, 8]) : Searched worldC false "m" a := by
  have hd : worldC.modules.get? "m" = some [("f", 3), ("g", 5), ("C", 9), ("G", 10)] := by decide +kernel
  have h9 : Searched worldC false "m" 9 := .top (x := "C") hd (by decide)
  have hi : false = true ∨ ∀ i m' q s rt o, InitOf [("go", 6), ("st", 8)] [] i → worldC.obj i = .func m' q s rt o → m' = "m" := by
    refine .inr fun i _ _ _ _ _ hi _ => ?_
    have : attr [("go", 6), ("st", 8)] [] "__init__" = some i := attr_init.2 hi
    have h' : attr ([("go", 6), ("st", 8)] : Dict String Addr) [] "__init__" = none := by decide +kernel
    rw [h'] at this
    cases this
  simp only [List.mem_cons, List.not_mem_nil, or_false] at h
  rcases h with rfl | rfl | rfl | rfl | rfl | rfl
  · exact .top (x := "f") hd (by decide)
  · exact .top (x := "g") hd (by decide)
  · exact h9
  · exact .top (x := "G") hd (by decide)
  · exact .attr (x := "go") h9 rfl (by decide) hi
  · exact .attr (x := "st") h9 rfl (by decide) hi

theorem placeC {d : DKey} (hm : d.1 ∈ ["__main__", "m"]) (h : Own worldC d) : InPlace worldC false d := by
  obtain ⟨m, q⟩ := d
  obtain ⟨a, v, h1, h2, h3⟩ := h
  dsimp only at hm h1 h3
  have : m = "m" := by
    simp only [List.mem_cons, List.not_mem_nil, or_false] at hm
    rcases hm with rfl | rfl
    · exact absurd h1 nothingC
    · rfl
  subst this
  refine ⟨a, v, searchedC (partC h1), ?_, h2, h3⟩
  have hl := partC h1
  have hb := mem_behindB (unwrapC a) h2
  simp only [List.mem_cons, List.not_mem_nil, or_false] at hl
  rcases hl with rfl | rfl | rfl | rfl | rfl | rfl
  · exact .inl ⟨_, rfl⟩
  · exact .inr (.inl ⟨_, _, _, _, _, rfl⟩)
  · rw [show behindB worldC 10 9 = [] by decide +kernel] at hb; cases hb
  · rw [show behindB worldC 10 10 = [] by decide +kernel] at hb; cases hb
  · exact .inr (.inl ⟨_, _, _, _, _, rfl⟩)
  · exact .inr (.inr ⟨rfl, _, _, rfl, by decide⟩)

theorem keptC : ∀ p ∈ knownC, Kept worldC (partsC p.1) p.2 := by
  intro p hp
  simp only [knownC, List.mem_cons, List.not_mem_nil, or_false] at hp
  rcases hp with rfl | rfl
  · refine ⟨3, "def f", "bf", loadObj_denotes.1 (by decide +kernel), ?_⟩
    exact ⟨2, 2, "m", "f", none, .inl rfl, .last (by rintro _ _ _ _ _ h; cases h) (by rintro _ _ h; cases h), rfl⟩
  · refine ⟨10, "10", loadObj_denotes.1 (by decide +kernel), rfl, ?_⟩
    rintro s rt ⟨b, c, m, q, o, h1, h2, h3⟩
    rcases h1 with h1 | ⟨_, rfl⟩
    · cases h1
    · cases h2 with
      | last => cases h3
      | func h => cases h
      | wrapping h => cases h

/-- The hypotheses of `C73_code_partial` and `C73_new_function_partial` hold for this program. -/
example : knownC.keys.Nodup ∧ (∀ p ∈ knownC, encD (partsC p.1) = p.1) ∧ (∀ p ∈ knownC, Kept worldC (partsC p.1) p.2) ∧
    (∀ m ∈ ["__main__", "m"], Tidy worldC m) ∧ (∀ d, d.1 ∈ ["__main__", "m"] → Own worldC d → InPlace worldC false d) ∧
    (∃ src, CodeOf worldC encD (fun d => encD d ∈ knownC.keys ∨ d.1 ∈ ["__main__", "m"] ∧ Own worldC d) src) ∧
    InPlace worldC false ("m", "C.st") ∧ ∀ m, ¬ Named worldC m "C.st" worldC.unknown := by
  refine ⟨by decide +kernel, by decide +kernel, keptC, ?_, fun d h1 h2 => placeC h1 h2, codeOf_exists _ encD_inj _, ?_, ?_⟩
  · intro m hm
    simp only [List.mem_cons, List.not_mem_nil, or_false] at hm
    rcases hm with rfl | rfl
    · exact fun a v q ha => absurd ha nothingC
    · exact tidyC
  · refine ⟨8, 7, searchedC (by decide), .inr (.inr ⟨rfl, _, _, rfl, by decide⟩), ?_, ⟨_, _, _, rfl⟩⟩
    exact .func (by rintro _ h; cases h) (.wrapping rfl (.last (by rintro _ _ _ _ _ h; cases h) (by rintro _ _ h; cases h))) rfl
  · rintro m ⟨_, _, _, h⟩
    injection h with _ h
    exact absurd h (by decide)

theorem readableC : Readable worldC 10 false "m" where
  depth := by
    refine ⟨fun a => if a = 9 then 2 else if a = 5 ∨ a = 8 then 1 else 0, fun a => by dsimp only; split <;> [skip; split] <;> decide, fun a b h => ?_⟩
    have hb := mem_insideB h
    by_cases ha : a < 11
    · exact (show ∀ a < 11, ∀ b ∈ insideB worldC "m" a, (if b = 9 then 2 else if b = 5 ∨ b = 8 then 1 else 0) < if a = 9 then 2 else if a = 5 ∨ a = 8 then 1 else 0 by
        decide +kernel) a ha b hb
    · rw [show worldC = mkWorld objsC [] _ from rfl, insideB_none (show objsC.length ≤ a by exact Nat.le_of_not_lt ha)] at hb
      cases hb
  source := by
    intro a v q h1 h2 ⟨s, rt, o, h3⟩
    have hb := mem_behindB (unwrapC a) h2
    have hv := (show ∀ a ∈ [3, 5, 9, 10, 6, 8], ∀ v ∈ behindB worldC 10 a, ∃ n, worldC.callableNode 10 v = .ok n by
      intro a ha v hv
      have := (show ∀ a ∈ [3, 5, 9, 10, 6, 8], ∀ v ∈ behindB worldC 10 a, (match worldC.callableNode 10 v with | .ok _ => true | .error _ => false) = true by
        decide +kernel) a ha v hv
      cases h : worldC.callableNode 10 v with
      | ok n => exact ⟨n, rfl⟩
      | error e => rw [h] at this; cases this) a (partC h1) v hb
    obtain ⟨n, hn⟩ := hv
    obtain ⟨s, rt, _, hf⟩ := callableNode_sound hn
    exact ⟨s, rt, hf⟩
  ops := by
    intro a f h1 h2
    have hl := partC h1
    simp only [List.mem_cons, List.not_mem_nil, or_false] at hl
    rcases hl with rfl | rfl | rfl | rfl | rfl | rfl <;> cases h2
    exact ⟨_, _, _, _, _, rfl⟩
  wrapped := fun h => by cases h

/-- The hypotheses of `C73_found_partial` hold for this program. -/
example : ("__main__" ∈ ["__main__", "m"] ∧ "__main__" ∈ worldC.modules.keys) ∧ (∀ p ∈ knownC, Present worldC (partsC p.1) p.2) ∧ Readable worldC 10 false "m" ∧
    FunctionAt worldC worldC.unknown "def unknown_function" "bu" ∧ (∀ m ∈ ["__main__", "m"], m ∈ worldC.modules.keys) := by
  refine ⟨by decide +kernel, fun p hp => ?_, readableC, ?_, by decide +kernel⟩
  · have := keptC p hp
    obtain ⟨k, n⟩ := p
    cases n with
    | callable => exact this
    | globalVar => exact let ⟨a, h, h1, h2, _⟩ := this; ⟨a, h, h1, h2⟩
    | terminal => exact this.elim
  · exact .plain rfl

/-! ### what is false -/

/-- C73 is false if an older function is kept under another name: it is taken for the function that now has its name. Here `helper` is written
again, after `old = helper`. -/
theorem C73_refuted_alias :
    let w := mkWorld [.func "mandala.deps.utils" "unknown_function" (some "def unknown_function") "bu" none, .other false,
      .func "m" "helper" (some "old code") "b1" none, .func "m" "helper" (some "new code") "b2" none] [] [("m", [("helper", 3), ("old", 2)])]
    w.guessCodeState 10 false true ["m"] partsC encD [] = .ok [(encD ("m", "helper"), .callable (some "old code") "b1")] ∧
      Denotes w "m" (splitDots "helper") 3 ∧ FunctionAt w 3 "new code" "b2" := by
  intro w
  have h : w.loadObj ("m", "helper") = .ok (some 3) := by decide +kernel
  exact ⟨by decide +kernel, loadObj_denotes.1 h, .plain rfl⟩

/-- C73 is false for variables that cannot be hashed: the tracer takes them, as it is told to, but then no context can be entered anymore. -/
theorem C73_refuted_unhashable :
    let w := mkWorld [.func "mandala.deps.utils" "unknown_function" (some "def unknown_function") "bu" none, .other false, .other false] [2] [("m", [("G", 2)])]
    ∃ n, w.globalNode true 2 = .ok n ∧ ∀ (fuel : Nat) (strict : Bool),
      w.guessCodeState fuel strict true ["m"] partsC encD [(encD ("m", "G"), n)] = .error .runtimeError := by
  intro w
  refine ⟨.globalVar "UNKNOWN_GLOBAL_VAR" "value", rfl, fun fuel strict => ?_⟩
  have : w.currentNodes fuel true partsC [(encD ("m", "G"), .globalVar "UNKNOWN_GLOBAL_VAR" "value")] = .error .runtimeError := by
    unfold PyProc.currentNodes
    have h : w.loadObj (partsC (encD ("m", "G"))) = .ok (some 2) := by decide +kernel
    simp only [foldE, currentNode, h]
    rfl
  unfold guessCodeState
  rw [this]

/-- C73 is false for a module with a dataclass: its constructor has no source, and no context can be entered. -/
theorem C73_refuted_dataclass (strict : Bool) :
    let w := mkWorld [.func "mandala.deps.utils" "unknown_function" (some "def unknown_function") "bu" none, .other false,
      .func "m" "D.__init__" none "bi" none, .cls "m" [("__init__", 2)] []] [] [("m", [("D", 3)])]
    w.guessCodeState 10 strict true ["m"] partsC encD [] = .error .runtimeError := by
  cases strict <;> decide +kernel

/-- C73 is false for a class that has itself as an attribute: no context can be entered. -/
theorem C73_refuted_cycle :
    let w := mkWorld [.func "mandala.deps.utils" "unknown_function" (some "def unknown_function") "bu" none, .other false,
      .cls "m" [("me", 2)] []] [] [("m", [("A", 2)])]
    ∀ fuel, w.guessCodeState fuel true true ["m"] partsC encD [] = .error .recursionError := by
  intro w fuel
  have h1 : ∀ n acc, w.crawlObj fuel true "m" n acc 2 = .error .recursionError := by
    intro n
    induction n with
    | zero => intro acc; rfl
    | succ n ih =>
      intro acc
      have h : w.crawlFunc fuel true "m" 2 acc = .ok (acc, false) := rfl
      unfold crawlObj
      rw [h]
      show (if ("m" : String) ≠ "m" then _ else foldE (w.crawlObj fuel true "m" n) acc [2]) = _
      rw [if_neg (fun h => h rfl)]
      unfold foldE
      rw [ih]
  have h2 : w.crawlStatic fuel true ["m"] = .error .recursionError := by
    have hm : w.modules.get? "m" = some [("A", 2)] := by decide +kernel
    simp only [crawlStatic, foldE, hm, List.map_cons, h1]
  have h3 : w.currentNodes fuel true partsC [] = .ok [] := rfl
  unfold guessCodeState
  rw [h3, h2]

/-- A class with a getter: `@property`, then `@track` -/
def getterC (text rt : String) : PyProc :=
  mkWorld [.func "mandala.deps.utils" "unknown_function" (some "def unknown_function") "bu" none, .other false,
    .func "m" "f" (some "def f") "bf" none, .op 2, .func "m" "C.x" (some text) rt none, .property 4, .cls "m" [("x", 5)] []] [] [("m", [("f", 3), ("C", 6)])]

/-- the code of this program -/
def getterSrc (text rt : String) : Source := fun k =>
  if k = encD ("m", "f") then some (.callable (some "def f") "bf")
  else if k = encD ("m", "C.x") then some (.callable (some text) rt)
  else none

/-- Op `f` returns what the getter gives. -/
def getterOps : Ops String where
  key _ := ("m", "f")
  acts src _ := [.call ⟨"m", "C.x", src.runtime (encD ("m", "C.x"))⟩ [] false]
  value src _ := match src (encD ("m", "C.x")) with | some (.callable (some t) _) => t | _ => ""

/-- The code state that is found, if it is -/
def foundC (w : PyProc) (strict : Bool) (topology : Dict DepKey TNode) : CodeState :=
  match w.guessCodeState 10 strict true ["m"] partsC encD topology with
  | .ok cs => cs
  | .error _ => []

def getterRun (strict : Bool) : VRun String :=
  let s := VRun.run encH encD getterOps (VRun.new strict (getterSrc "return 1" "b1"))
    [.enter (foundC (getterC "return 1" "b1") strict []) fun _ => .yes, .call "f(1)", .exit, .change (getterSrc "return 2" "b2")]
  VRun.run encH encD getterOps s [.enter (foundC (getterC "return 2" "b2") strict s.st.versioner.topology) fun _ => .yes]

set_option maxRecDepth 20000 in
/-- C73 is false for getters and class methods, although they can be tracked: nothing is found there. If the storage is not strict, a change goes
unnoticed and the result of the old code is returned; otherwise the op cannot be called. -/
theorem C73_refuted_getter :
    (VRun.call encH encD getterOps (getterRun false) "f(1)").1 = .ok "return 1" ∧ getterOps.value (getterRun false).src "f(1)" = "return 2" ∧
      (VRun.call encH encD getterOps (getterRun true) "f(1)").1 = .error .valueError ∧
      FunctionAt (getterC "return 2" "b2") 4 "return 2" "b2" ∧ Named (getterC "return 2" "b2") "m" "C.x" 4 := by
  exact ⟨by decide +kernel, by decide +kernel, by decide +kernel, .plain rfl, _, _, _, rfl⟩

/-- C73 is false for a class that inherits its constructor from another module: its methods are not found unless the storage is strict. -/
theorem C73_refuted_inherited :
    let w := mkWorld [.func "mandala.deps.utils" "unknown_function" (some "def unknown_function") "bu" none, .other false,
      .func "lib" "Base.__init__" (some "def __init__") "bi" none, .func "m" "C.go" (some "def go") "bg" none,
      .cls "m" [("go", 3)] [("__init__", 2)]] [] [("m", [("C", 4)])]
    w.guessCodeState 10 false true ["m"] partsC encD [] = .ok [] ∧
      w.guessCodeState 10 true true ["m"] partsC encD [] = .ok [(encD ("m", "C.go"), .callable (some "def go") "bg")] := by
  constructor <;> decide +kernel

end Verif.Props
