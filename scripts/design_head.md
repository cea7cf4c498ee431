# Formal model of mitex in Lean 4 — design and trusted base

(Generated by `scripts/design.py` from `design_head.md`, `design_how.json`, `design_tail.md`, `properties.jsonl`, `MANIFEST.json`.)

## Layout

* `lean/Verif/Model/*`  – the model, one file per Rust source file; every definition cites the file and lines it models.
* `lean/Verif/Spec/*`   – small independent specifications used in the statements: rules, grammars, templates, data types.
  They use the vocabulary of the model (tokens, trees, the record of a command specification), but none of its algorithms.
* `lean/Verif/Proof/*`  – lemmas.
* `lean/Verif/Props/*`  – the property theorems, named `Cnn_…`, with examples beside them that meet their hypotheses.
* `scripts/`            – `conformance.py` replays the repository's snapshot tests on the model, `captures.py` those of glob captures, `genspec.py` transcribes the standard package,
  `manifest.py`, `addprop.py`, `mutlog.py`, `design.py` keep the records.
* `seeded/LOG.jsonl`    – the wrong programs the theorems were tested against.

## Modelling conventions

* `&str` is `List Char` (`Text`); where the code counts bytes the model counts UTF-8 bytes of the characters, and slicing off a boundary is a panic.
  Globs work on bytes (`List Nat`), as in the code.
* `Except Stop α`: `Stop.panic` is a Rust panic (`unwrap`, slice, `assert!`), `Stop.fuel` is "the loop did not finish within the given number of
  steps" (only where the Rust loop or recursion is not structurally bounded; there are theorems that it never happens for enough fuel, or that it
  happens for every fuel), `Stop.error msg` is a `ConvertError`.
* `&mut self` functions return the new state.  The formatter of the converter is a field of its state.
* The stages are modelled one after the other: `tokensOf` (the whole text), the macro engine on the list of tokens, the parser on the delivered
  list, the converter on the tree.  In the code the lexer is lazy: it is pulled by the engine, which is pulled by the parser.  C03 and C08 prove that
  the pages and the buffers between the first two are unobservable.  The interleaved run is a second model (Model/Lazy); C72 proves that it gives
  the same answers.  (The two could differ only between an endless expansion and a panic of a later stage: the code may panic in the parser before
  the expansion goes on for ever, the staged model calls it endless.  Neither is a success, and C72 covers that too.)

## The properties

