# Formal model of mozak-vm in Lean 4 — design

## Layout

Everything is under `lean/Verif/`, one directory per area of the code base:

| directory | code in /repo | namespace |
|---|---|---|
| `Runner` | `runner/src` (decoder, ALU, memory, system calls, run loop, ELF and word-image loading) | `Mozak.Runner` |
| `Circuits` | `circuits/src` (CPU, ADD, BLT-taken, skeleton, memory, register, range-check, xor, shift tables, cross-table lookups, trace generation) and `expr/src` | `Mozak.Circuits`, `Mozak.Expr` |
| `Sdk` | `sdk/src` (merkleize, event/call tapes native and in the VM, input tapes, padding, encodings, allocator), `cli/src/runner.rs` | `Mozak.Sdk` |
| `Node` | `node/src/block_proposer*` (addresses, tree reductions, state tree, event merging, transaction accumulation, matching, block log) | `Mozak.Node` |
| `Recproofs` | `recproofs/src` (subcircuits and the circuits built from them) | `Mozak.Recproofs` |

In each directory the model files hold one Lean definition per Rust function (each with a comment citing
file and lines in /repo, and the simplifications made); `Spec*.lean` files hold the small independent
specifications the properties are stated against; `*Lemmas*.lean` helper lemmas; `Theorems*.lean` the
property theorems, with an `example` beside each showing that a concrete, non-trivial case meets its
hypotheses (or a concrete counterexample where the property is false of the code).

`seeded/LOG.jsonl` is the record of the mutation tests: the model is edited in a scratch copy as a
realistic bug would change the program, the whole project is rebuilt, and the theorems that no longer
prove are listed; edits that survived led to the theorems listed under `theorems_tightened`.

## Modelling conventions

* `u8/u16/u32/u64` are `BitVec` of that width; where wrap-around cannot be observed (list lengths, the
  clock) or is modelled explicitly (addresses in `Sdk` and `Node`), `Nat`.
* `&mut self` / `self -> Self` methods are functions returning the new value.
* A Rust `panic!`, failed `assert!`, `unwrap` of an error, index out of range, is an explicit result
  (`none` or an error value). Arithmetic overflow depends on the build profile; where it can happen the
  profile is a parameter (`overflowChecks`, `Profile.checked | wrapping`) and both are covered.
* `im::HashMap<u32,u8>` is a function `Word → Option Byte`; iteration order is never observable.
* Loops that may not terminate take fuel, and theorems quantify over the fuel; divergence is "for every
  fuel, no result".
* The field is `ZMod p`, p = 2^64-2^32+1 (primality proved in `Circuits/Field.lean`).
* STARK tables are lists of rows; a constraint is the proposition that the polynomial vanishes on every
  row / first row / every transition / last row. The soundness theorems start from "the constraints hold
  on the trace and the lookups hold as multisets"; C28 relates the latter to the logUp sums and bounds
  the bad challenges, and C89 relates the former to the verifier's polynomial identity. FRI is not modelled: an
  opening is the value of a committed polynomial; Fiat–Shamir only as what the transcript contains (C82).
* Where a CPU theorem needs a lookup it takes the table in its ideal form (what the table is meant to
  contain); C30, C33 say how far the tables deliver that, and the composition gaps found are stated.
* A recursive circuit is the relation on its targets that its gates enforce (gate by gate: `connect`,
  `is_equal`, `select`, `assert_bool`, range checks, hashes), its targets being field elements; a
  recursive proof is an object that verifies against a verifier key (`Recursion.lean`), so that theorems
  about accepted proofs do not assume what a proof tree looks like.
* Hash functions (Poseidon2, and the compression built on it) are parameters. Nothing is assumed about
  them except where binding is claimed: then the hypothesis is `CollisionFree H inputs` — no two
  different members of an *explicit list of inputs that were hashed* collide — rather than injectivity,
  which no compressing function has.

## Status and theorems per property

`proved`: the English property is proved for all inputs of the model. `partial`: only part holds or
could be proved; in nearly all cases because the property is *false of the code at this commit*, which is
then itself a theorem with a witness, and the strongest true part is proved under the suffix `_partial`.

| id | property | status | theorems | note |
|---|---|---|---|---|
| C01 | Executing a program word is executing the RV32IM instruction it encodes | proved | `Runner.exec_word_refines_rv32im`, `Runner.exec_word_aborts_on_readonly` |  |
| C02 | The decoder accepts exactly the documented encodings and never panics | proved | `Runner.decode_accepts_iff`, `Runner.decode_rejects`, `Runner.decode_nop`, `Runner.decode_ecall` |  |
| C03 | Register x0 reads as zero in every reachable state | proved | `Runner.x0_is_zero` |  |
| C04 | Read-only memory and code never change during a run | proved | `Runner.readonly_never_changes`, `Runner.readonly_write_aborts`, `Runner.exec_word_aborts_on_readonly` |  |
| C05 | Memory is a byte map: loads see the latest store and an instruction touches only the addresses it reports | proved | `Runner.step_memory`, `Runner.load_sees_last_write` | little-endian multi-byte accesses are part of exec_word_refines_rv32im (C01) |
| C06 | The execution record is a gap-free chain of deterministic steps ending at the first halt | proved | `Runner.run_record`, `Runner.record_is_chain`, `Runner.run_deterministic`, `Runner.run_complete` |  |
| C07 | Reading a tape consumes it front to back without loss or duplication | proved | `Runner.tape_prefix`, `Runner.read_delivers_next`, `Runner.other_instructions_keep_tape` |  |
| C08 | Commitment tapes and the self program id are constant over a run | proved | `Runner.commitment_reads_constant` |  |
| C09 | Division and remainder are total and satisfy the RISC-V division laws | proved | `Runner.divu_remu_law`, `Runner.div_rem_law`, `Runner.div_by_zero`, `Runner.div_overflow`, `Runner.div_rem_wrapping` |  |
| C10 | High and low multiplication together give the exact product | proved | `Runner.mulhu_mul`, `Runner.mulh_mul`, `Runner.mulhsu_mul` |  |
| C100 | The token and wallet examples do exactly what a transfer asks | proved | `Apps.token_run_iff`, `Apps.wallet_run_iff`, `Apps.transfers_complete` | As C99; the hash function is a parameter. |
| C101 | A token changes hands only with its owner's private key | partial | `Apps.stolen`, `Apps.not_owner_consents`, `Apps.owner_consents_partial`, `Apps.approval_for_any_key` | False of the code: the caller of a transfer chooses the program that is asked for approval, and nothing ties it to the object, so a program that approves everything will do (stolen); nor does the request contain the new owner's key (approval_for_any_key). owner_consents_partial: it holds for transfers that name the wallet program. |
| C102 | The matcher's block proof is about the actual old and new objects | partial | `Node.finalize_spec`, `Node.finalize_hashes_wrong_old_object`, `Node.written_object_block_refused`, `Node.finalize_binds_objects_partial` | False of the code: finalize passes the new object's update height to the circuit as the old one's (matches.rs:185), so for an object that is written the proof is about another old object, and the block cannot be added to the log (written_object_block_refused). finalize_spec says what the proof is about, for all histories; finalize_binds_objects_partial: the property holds if the update heights of the objects touched stay the same. |
| C103 | The transaction proof and the match proof of a block agree on its events | partial | `Node.event_roots_disagree`, `Node.event_roots_agree_partial` | False of the code: four events of one program on one address are hashed as a balanced tree on one side and from the left on the other (event_roots_disagree). event_roots_agree_partial: it holds, for all histories, if no address has more than two events and those on an address come from one program. |
| C104 | The block log grows by exactly the blocks whose proofs fit | proved | `Node.block_log`, `Node.block_log_certified` | A proof is represented by its public inputs. |
| C105 | No transaction can bring the matcher down | partial | `Node.double_write_panics`, `Node.conflicting_transactions_panic`, `Node.ingest_succeeds_iff_partial`, `Node.ready_succeeds_iff_partial`, `Node.matcher_proofs_satisfy_circuits` | False of the code: two writes of one object in a transaction, or in two transactions of a block, bring the process down. The partial theorems say exactly when the calls succeed. |
| C106 | The node converts a program's events without loss | partial | `Node.converted_events_collide`, `Node.convert_event_faithful_partial` | False of the code: words of a digest that differ by the field's order are identified. convert_event_faithful_partial: everything else, and no loss for canonical words. |
| C107 | A natively recorded transaction replays in the VM | partial | `Sdk.recording_correct`, `Sdk.replay_iff_partial`, `Sdk.replay_inputs`, `Sdk.raw_tapes_unique`, `Sdk.merkleize_profile`, `Sdk.replay_fails_top_bit`, `Sdk.replay_fails_interleaved` | False as stated: replay_iff_partial characterises exactly the recordings that replay; replay_fails_top_bit and replay_fails_interleaved are recordings that run natively and do not replay. rkyv is a parameter (what is written is read back); the JSON file between the native run and the CLI is not modelled. |
| C108 | A circuit's named public values are read from and written to their own places | proved | `Recproofs.Indices.new_iff`, `Recproofs.Indices.get_new`, `Recproofs.Indices.get_field_reads`, `Recproofs.Indices.set_field_writes`, `Recproofs.Indices.repeated_target_not_written`, `Recproofs.Indices.twice_registered_target`, `Recproofs.Indices.verifierData_positions` | Writing requires the targets of the value to be different from one another (repeated_target_not_written); a target registered twice is only written at its first place (twice_registered_target). |
| C109 | The recursive verifier circuit accepts exactly the VM proofs that the native verifier accepts | proved | `Circuits.Rec.recursive_verifier_exact`, `Circuits.Rec.accepted_proof_is_provable`, `Circuits.Rec.satisfied_circuit_is_accepted`, `Circuits.Rec.public_input_layout` | FRI, the challenger's permutation, the extension field and plonky2's gadgets are parameters: both verifiers are given the same ones. A panic of the native verifier counts as not accepting. Which bytes can stand for the program id is C88. |
| C11 | System calls have exactly their documented effect | proved | `Runner.halts_iff`, `Runner.halt_effect`, `Runner.undefined_ecall_is_noop`, `Runner.ecall_keeps_registers`, `Runner.ecall_advances_pc`, `Runner.panic_never_returns`, `Runner.trace_log_outcome`, `Runner.panic_outcome` |  |
| C110 | The recursive batch verifier circuit accepts exactly the well-shaped batch proofs that the native batch verifier accepts | proved | `Circuits.Rec.recursive_batch_verifier_exact`, `Circuits.Rec.accepted_batch_proof_is_provable` | FRI, batch FRI, the challenger's permutation, the extension field and plonky2's gadgets are parameters: both verifiers are given the same ones. That the native batch verifier also accepts proofs of other shapes is C94. |
| C111 | A proof that the prover returns for valid traces is accepted by the verifier | proved | `Circuits.Rec.honest_proof_accepted`, `Circuits.Rec.prover_gives_up_only_by_accident`, `Circuits.Rec.goldilocks_domain` | Taken from plonky2: an opening proof of polynomials of the right degree is accepted with their values (Oracle.Complete), and the Fourier transforms interpolate. goldilocks_domain shows that plonky2's roots of unity and coset of the VM's field are as assumed. |
| C112 | An accepted proof of tables that are not as claimed needs challenges from small sets | proved | `Circuits.Rec.verifier_sound`, `Circuits.Rec.verifier_sound_each`, `Circuits.Rec.padded_rows_accepted` | FRI is the assumption that openings are values of committed polynomials of the right degree (Transcript). That published rows have the declared widths is a hypothesis (Widths): padded_rows_accepted shows that the verifier accepts rows of other widths. The public values are fixed before the challenges: that the transcript does not enforce this is C82. |
| C113 | Accepted tables come from a run of the program | partial | `Circuits.every_program_halts`, `Circuits.accepted_without_run`, `Circuits.Accept.accepted_run_partial`, `Circuits.Accept.honest_run_accepted` | The property is false of the code: every_program_halts builds the tables for every program with an instruction at its entry point (the immediate is not constrained to be the one of the program, as the packed instruction is a sum), and accepted_without_run has a program that never halts. accepted_run_partial proves the property, for all programs as the loader makes them (`Tidy`) and all tables, including tape reads and hash calls, for tables that in addition meet the conditions listed in `Accept.Closed`, each of which the verifier leaves unchecked and names the theorem that shows what goes wrong without it; honest_run_accepted shows that every honest prover of a run (up to 2^20 steps, bytes and hashed bytes) meets them. Nothing else is missing. |
| C114 | An accepted batch proof of tables that are not as claimed needs challenges from small sets | proved | `Circuits.Rec.batch_verifier_sound`, `Circuits.Rec.batch_circuit_sound` | FRI is the assumption that openings are values of committed polynomials of the right degree (BatchRounds). The native batch verifier does not check that a table of the batch has all its quotient openings, so that is part of BatchTranscript (without it any trace passes: C94); the circuit checks it, and batch_circuit_sound does not assume it. Public values are fixed before the challenges (see C82). |
| C115 | A batch proof of valid traces is accepted | proved | `Circuits.Rec.honest_batch_proof_accepted`, `Circuits.Rec.honest_batch_publishes`, `Circuits.Rec.honest_batch_proof_in_circuit`, `Circuits.Rec.batch_prover_gives_up_only_by_accident` | plonky2's commitments and opening proofs are parameters with completeness as hypothesis (BatchOracle.Complete). The verifier compacts the challenger before each public table and the prover does not; that this makes no difference (Settled) holds of a challenger that has nothing buffered after a challenge, which the example shows of a duplex challenger. The list of public tables has to be in the order of the tables (else prover and verifier observe their caps in different orders: C95). The assertion on FRI arities of single tables in batch_prover.rs:566-570 is left out. |
| C116 | A transaction bundle speaks for the programs that took part | partial | `Sdk.bundle_spec`, `Sdk.bundle_complete_partial`, `Sdk.raw_tapes_exist_iff`, `Sdk.bundle_exists_iff`, `Sdk.bundle_skips_unknown`, `Sdk.call_tape_hash_disagrees` | Proved of every bundle: the cast list is the sorted list of called programs, equal to the list that the programs commit to in the VM without the null program; attestations, their order and their contents; and exactly when a bundle is made. False without the hypothesis that the map knows every program: an unknown program is dropped without an error, and the call tape hash is then of a run of another program (bundle_skips_unknown). Also false: that all programs agree on the call tape hash, because the committed trace contains the times of the reads (call_tape_hash_disagrees). Files and JSON are left out; the map is a function, loading a program and the commitment are parameters. |
| C117 | Program identifiers survive being written as text | proved | `Sdk.parse_iff`, `Sdk.parse_print`, `Sdk.print_injective`, `Sdk.spells_length`, `Sdk.parse_same`, `Sdk.programsMap_reads`, `Sdk.programsMap_finds`, `Sdk.id_check_iff`, `Sdk.id_check_unique`, `Sdk.documented_null_unreadable` | The crate hex and str::split are modelled as their documentation says. The text that the documentation of is_null_program gives for the null program has 63 digits and cannot be read (documented_null_unreadable). |
| C118 | Native runs of the example programs complete in the VM | proved | `Apps.counter_native_replays`, `Apps.token_native_replays`, `Apps.wallet_native_replays_iff`, `Apps.counterClient_iff`, `Apps.counter_end_to_end`, `Apps.counter_two_objects_no_tapes`, `Apps.token_end_to_end`, `Apps.token_main_completes`, `Apps.wallet_end_to_end` | rkyv and the archive of the tapes are parameters (what is written is read back). Seeded random keys and addresses of the native mains are arguments. The native wallet checks nothing (token_end_to_end: any bytes in the place of the key are recorded); an honest run over two objects whose addresses differ in the top bit and no third gets no tapes (counter_two_objects_no_tapes). |
| C119 | The input tape example completes exactly on matching inputs and at most one call | proved | `Apps.input_run_iff`, `Apps.input_native_replays_iff`, `Apps.input_end_to_end` | The two argument and return types have one value each and are Unit; rkyv and the tape archive are parameters. The seeded random 32 bytes of the native main are an argument. The program asks each tape for its fixed length, so a second call always panics (input_end_to_end). |
| C12 | The fetched instruction is the decoding of the four little-endian image bytes at the pc | proved | `Runner.code_from_image`, `Runner.code_from_image_total` |  |
| C120 | Debug mode passes exactly the traces that satisfy the constraints and lookups | proved | `Circuits.Rec.debug_checks_iff`, `Circuits.Rec.checkSingleCtl_iff`, `Circuits.Rec.debug_changes_nothing`, `Circuits.Rec.debug_proof_accepted`, `Circuits.Rec.debug_batch_proof_accepted`, `Circuits.Rec.debug_ignores_public` | The property is about what debug mode decides, not about the messages it logs. Debug mode does not look at public sub tables: it can pass traces whose public filters are not bits (debug_ignores_public), so that the statement about proofs assumes these. Traces are rectangular tables with a power of two of rows, as generate_traces makes them; starky's debug consumer and plonky2's transpose are modelled by what they compute. |
| C121 | Executing a list of instructions is running it on an RV32IM machine | proved | `Runner.execute_runs`, `Runner.execute_straight`, `Runner.execute_aborts`, `Runner.execute_falls_out`, `Runner.execute_diverges`, `Runner.execute_bad_register`, `Runner.exists_listing` | The list of instructions is the decoding of RV32IM instructions laid out from address zero on (every list that fits has one); lists of 2^30 - 1 instructions and more are not covered. System calls other than the two appended instructions are the subject of C02 to C05. |
| C13 | Loading an ELF puts every segment byte where its flags say | proved | `Runner.loaded_image`, `Runner.lastByte_isSome`, `Runner.rwx_segment_reads_zero`, `Runner.load_succeeds_iff` | the loader's comment about RWX segments is refuted by rwx_segment_reads_zero |
| C14 | Word images are rejected if words overlap and otherwise preserve every word | proved | `Runner.word_image_accepted_iff`, `Runner.word_image_contents`, `Runner.word_program_contents` |  |
| C15 | The hash ecall absorbs the whole input and its recorded sponge trace is a chain | proved | `Runner.hash_call`, `Runner.hash_call_aborts`, `Runner.hash_call_succeeds` |  |
| C16 | Trace columns agree with the execution | proved | `Runner.columns_agree`, `Runner.memory_column_agrees` |  |
| C17 | Execution aborts only for documented reasons | proved | `Runner.abort_reasons`, `Runner.trace_log_outcome`, `Runner.panic_outcome` |  |
| C20 | CPU constraints force correct addition, subtraction, and bitwise results | proved | `Circuits.cpu_alu_sound`, `Circuits.add_table_sound`, `Circuits.add_table_range_checked`, `Circuits.cpu_range_checked` | SUB/XOR/OR/AND in the CPU table, ADD in its own table; lookups taken as ideal (what the range-check, xor and shift tables are meant to contain), the register plus immediate not overflowing as in every decoded instruction. |
| C21 | CPU constraints force correct multiplication | proved | `Circuits.mul_sound` | MUL, MULH, MULHU, MULHSU and SLL, for all rows; lookups ideal. |
| C22 | CPU constraints force correct division and remainder | partial | `Circuits.div_sound_partial`, `Circuits.division_forged`, `Circuits.signed_division_forged`, `Circuits.remainder_forged` | Proved if the column for the quotient's sign is a bit, which no constraint forces; without it the claim is false: forged quotient and remainder rows. |
| C23 | CPU constraints force correct comparisons and branches | partial | `Circuits.branch_sound`, `Circuits.slt_sound_partial`, `Circuits.comparison_forged` | Branches proved in full for the CPU table. SLT/SLTU proved only if the absolute difference is a 32-bit value; the circuit range-checks it only for branches, and the claim is false: forged rows. |
| C24 | CPU constraints force correct shift amounts and jumps | partial | `Circuits.shift_amount_sound`, `Circuits.jalr_sound_partial`, `Circuits.jump_to_odd`, `Circuits.jump_below_zero`, `Circuits.last_row_target_free` | Shift amounts and return addresses proved. The jump target is right only if it is a 32-bit value and even; refuted otherwise; in the last row of the table it is free. |
| C25 | The memory table forces every read to return the last write | proved | `Circuits.memory_sound`, `Circuits.memory_write_protected`, `Circuits.memory_load_latest`, `Circuits.memory_init_unique`, `Circuits.memory_store_writable` | For every table of up to 2^32 rows satisfying the constraints and range lookups (range lookups taken as ideal 32-bit checks; see C30 for how far the range-check table delivers that): each load of the CPU tables returns the latest earlier store, else the image byte or zero; a store to an address initialised read-only is impossible; addresses are 32-bit. |
| C26 | The register table forces every register read to return the last write | partial | `Circuits.register_zero_reads`, `Circuits.register_sound_partial`, `Circuits.register_initial_forged`, `Circuits.register_reset_forged` | The property is FALSE as stated: register_initial_forged (the first row of the table need not be an initialisation, so the first read of x1 may return anything) and register_reset_forged (the honest initialisation table lists x31 twice, so writes of x31 can be undone). register_sound_partial proves it when the first row is an initialisation and no register is initialised twice; register_zero_reads (x0 reads zero) holds without those. |
| C27 | Packed program ROM entries identify the instruction | partial | `Circuits.rom_injective`, `Circuits.rom_lookup_partial`, `Circuits.any_instruction_as_nop`, `Circuits.any_instruction_as_halt` | Injectivity proved for in-range fields. The immediate of a CPU row is not range-checked, so every program entry can be matched by a row that does nothing or that halts: refuted. |
| C28 | Cross-table lookups hold only for equal multisets | proved | `Circuits.ctl_sound`, `Circuits.ctl_complete`, `Circuits.balanced_iff_perm`, `Circuits.balanced_subset`, `Circuits.public_sub_table_sound`, `Circuits.cancelling_lookup` | Soundness bound (k+2)*n*p of the p*p challenges for any unbalanced lookup, whatever running sums are committed; completeness of partial_sums; balancing = equal multisets when filters are binary; cancelling_lookup shows that with free multiplicities balancing does not imply membership. |
| C29 | The constraint expression language evaluates as ordinary arithmetic and caching is transparent | proved | `Expr.evaluation_is_arithmetic`, `Expr.field_evaluation`, `Expr.cache_transparent`, `Expr.built_in_arena`, `Expr.constant_folding_wraps`, `Expr.plain_count`, `Expr.cached_count`, `Expr.constraints_native`, `Expr.constraints_in_circuit` | Proved for every program that builds expressions, every ring and every evaluator that follows the ring's operations. Holds with overflow checks; in a build without them constant folding of plain i64 integers wraps at 64 bits, which constant_folding_wraps exhibits. |
| C30 | The range check tables accept exactly 32-bit and 8-bit values | partial | `Circuits.u8_table_exact`, `Circuits.rangecheck_forged`, `Circuits.rangecheck_sound_partial`, `Circuits.rangecheck_complete` | The 8-bit table is exactly 0..255. The property is FALSE for the 32-bit table: rangecheck_forged makes any field element pass with 1024 extra rows, because the table has no constraints and a row's multiplicity is also the filter of its limb lookups. rangecheck_sound_partial: it holds if multiplicities are genuine counts. |
| C31 | The CPU skeleton table forces consecutive clocks and a single halt | proved | `Circuits.skeleton_sound`, `Circuits.skeleton_complete`, `Circuits.skeleton_steps_partial`, `Circuits.skeleton_size` | skeleton_sound: the rows available for lookup are one gap-free chain ending in the single halt, for all tables; skeleton_complete: honest runs generate such a table; skeleton_steps_partial extends it to the instruction tables when their filters are binary (they are not forced to be: C34). |
| C32 | Storage device tables deliver tape bytes contiguously | partial | `Circuits.Storage.honest_table_accepted_iff`, `Circuits.Storage.honest_run_accepted_iff`, `Circuits.Storage.empty_read_then_read_unprovable`, `Circuits.Storage.stores_without_call`, `Circuits.Storage.read_without_stores`, `Circuits.Storage.memory_forged_by_tape_table`, `Circuits.Storage.call_start_partial`, `Circuits.Storage.contiguous_delivery_partial`, `Circuits.Storage.honest_table_disciplined`, `Circuits.Storage.table_holds_calls`, `Circuits.Storage.call_lookups` | The property is false of the code: stores_without_call and read_without_stores exhibit, for arbitrary writes and arbitrary announced sizes, accepted tables that break it, and memory_forged_by_tape_table shows the effect on memory; empty_read_then_read_unprovable shows an honest run whose table is rejected. Proved: the exact condition under which honest tables are accepted, what every accepted table does guarantee (call_start_partial), and the full statement under an explicit discipline that honest tables keep. |
| C33 | XOR and shift-amount tables contain only correct entries | proved | `Circuits.xor_table_sound`, `Circuits.xor_table_complete`, `Circuits.shift_table_sound`, `Circuits.shift_table_full`, `Circuits.shift_table_complete`, `Circuits.shift_table_lookups` | Any satisfying table, used or unused rows; table length below the field order. |
| C34 | Only executed instructions touch registers, and BLTU is taken only when its condition holds | partial | `Circuits.ghost_register_write`, `Circuits.bltu_taken_forged`, `Circuits.bltu_taken_partial` | FALSE of the code: a cancelling pair of ADD and BLT-taken rows writes any 32-bit value to any register without executing an instruction, and a BLTU can be taken whatever its operands because the range check defined for the BLT-taken table is not part of any lookup. bltu_taken_partial: with that range check the branch is sound. |
| C35 | Every honest execution can be proved | partial | `Circuits.honest_cpu_row_partial`, `Circuits.honest_add_row_partial`, `Circuits.padding_ok`, `Circuits.honest_cpu_trace_partial`, `Circuits.provable_of_decoded`, `Circuits.honest_division_unprovable`, `Circuits.honest_jump_unprovable`, `Circuits.honest_log_unprovable`, `Circuits.pc_wrap_violates`, `Circuits.step_in_one_table` | Proved for all executions whose steps are Provable; the four excluded kinds of step are refuted with concrete runs. CPU and ADD tables. |
| C36 | CPU constraints force correct loads and stores | partial | `Circuits.mem_address_sound_partial`, `Circuits.load_sound_partial`, `Circuits.store_sound_partial`, `Circuits.load_word_dst_free`, `Circuits.store_word_value_free`, `Circuits.store_byte_value_free`, `Circuits.load_byte_forged` | Addresses proved; values are right only under conditions the circuit does not enforce; refuted for LW, SW, SB, SH, LB, LBU. |
| C37 | CPU constraints force the right system call and the next instruction after it | partial | `Circuits.ecall_sound_partial`, `Circuits.ecall_target_free` | The selected system call is proved right; the next program counter of a system call is unconstrained: refuted. |
| C38 | A lookup's column expressions mean ordinary arithmetic in every evaluator | proved | `Circuits.Lin.column_evaluates`, `Circuits.Lin.circuit_evaluates_same`, `Circuits.Lin.table_evaluates`, `Circuits.Lin.composed_column_combines`, `Circuits.Lin.trace_sums_are_entry_sums`, `Circuits.Lin.negated_filter`, `Circuits.Lin.overflow_panics` | The operators on typed columns panic when a coefficient leaves the 64-bit range (overflow_panics); whenever a column is built, it is right. negated_filter excludes the coefficient -2^63, whose negation overflows. |
| C39 | Half-word and word accesses are split into bytes at consecutive addresses | proved | `Circuits.halfword_sound`, `Circuits.fullword_sound` | For every satisfying table whose address and limb cells pass their 32- and 8-bit checks. |
| C40 | merkleize computes the root of the address trie | proved | `Sdk.merkleize_root`, `Sdk.merkleize_sound`, `Sdk.merkleize_empty` | Exact root for every sorted list of u64-addressed leaves on which merkleize returns. |
| C41 | merkleize terminates on every input | partial | `Sdk.merkleize_returns_iff_partial`, `Sdk.merkleize_diverges_in_release`, `Sdk.merkleize_panics_in_debug`, `Sdk.merkleize_not_total`, `Sdk.topBitOnly_sorted_iff`, `Sdk.cast_list_commitment_returns` | The property as stated is false: the exact set of inputs on which merkleize returns is proved (iff), and on the complement it is proved to diverge (release) or panic (debug). |
| C42 | The canonical event order and its temporal hints are mutually inverse | proved | `Sdk.canonical_hints_correct`, `Sdk.temporal_hints_correct`, `Sdk.canonical_hints_panic` | Hints are mutually inverse permutations; panics only when an index exceeds u32. |
| C43 | The in-VM event tape accepts exactly re-orderings recorded natively | proved | `Sdk.native_events_accepted`, `Sdk.accepted_events_sound`, `Sdk.accepted_prefix_sound`, `Sdk.emit_ignores_owner`, `Sdk.tape_order_not_enforced`, `Sdk.canonical_order_is_not_address_order` | The last three record observable weaknesses of the check (owner not compared, tape order not enforced, byte-lexicographic order). |
| C44 | The in-VM call tape check is sound and natively recorded tapes pass it | partial | `Sdk.cast_list_spec`, `Sdk.call_tape_sound_partial`, `Sdk.own_calls_can_be_skipped`, `Sdk.script_accepted_iff`, `Sdk.native_tape_accepted_iff_partial`, `Sdk.native_tape_rejected`, `Sdk.cast_list_sorted`, `Sdk.cast_list_canonical` | False as stated in two ways, both proved with witnesses (own calls can be skipped; native tapes with nested calls can be rejected); exact acceptance condition proved. |
| C45 | Reading the in-VM input tapes delivers the tape in order | partial | `Sdk.tape_agrees_iff_partial`, `Sdk.input_tape_is_cursor_partial`, `Sdk.sequential_reads`, `Sdk.seek_is_not_std`, `Sdk.forward_seek_aborts`, `Sdk.short_tape_reads_zeros` | Reads in order proved for all histories of supported requests; the exact set of requests agreeing with std::io is proved (iff); the rest is refuted with proofs. |
| C46 | Hash padding is injective | proved | `Sdk.padding_injective` |  |
| C47 | Identifiers and digests round-trip through their encodings | proved | `Sdk.words_digest_words`, `Sdk.digest_words_digest`, `Sdk.address_roundtrip` |  |
| C48 | The bump allocator never hands out overlapping or misaligned memory | partial | `Sdk.allocations_disjoint`, `Sdk.allocation_fails_only_when_full`, `Sdk.wrapping_allocator_overlaps` | Proved for builds with overflow checks and for all histories that do not exhaust the address space; refuted for builds without overflow checks. |
| C49 | The native caller identity stack brackets calls | proved | `Sdk.native_execution`, `Sdk.call_brackets_identity` |  |
| C50 | Address paths enumerate address bits from the most significant | proved | `Node.address_path_bits` |  |
| C51 | Branch addresses form the prefix tree of addresses | partial | `Node.child_then_parent`, `Node.child_of_lowest`, `Node.parent_then_child`, `Node.compare_partial`, `Node.common_ancestor_partial`, `Node.compare_top_leaf_refuted`, `Node.common_ancestor_panics`, `Node.common_ancestor_wrong_in_release` | Proved for all valid branches except pairs that make the code shift a u64 by 64 (top branch against a leaf address; leaf addresses in different halves of the address space), where the property is refuted: panic with overflow checks, wrong answer without. |
| C52 | Tree reduction preserves order and uses every leaf once | proved | `Node.reduce_tree_in_order`, `Node.reduce_tree_assoc` |  |
| C53 | Reducing by address groups events per address and matches merkleize's shape | proved | `Node.reduce_by_address_root`, `Node.proposer_event_root_eq_merkleize` | For address-sorted lists; also equals whatever the SDK's merkleize returns. |
| C54 | The state tree behaves like a map from addresses to objects | proved | `Node.state_is_map`, `Node.conflict_after_read_accepted` | The precise conflict rule is Spec.Acceptable; the stricter rule is refuted. |
| C55 | Finalizing a block keeps exactly the surviving objects | proved | `Node.finalize_keeps_survivors` |  |
| C56 | Merging event trees keeps every event exactly once in address order | partial | `Node.merge_events_partial`, `Node.merge_events_returns_partial`, `Node.merge_third_event_panics`, `Node.merge_halves_panics`, `Node.merge_out_of_order_in_release`, `Node.event_tree_wellformed`, `Node.merge_branch_partial` | Full claim (merging always returns an ordered tree with exactly the events of both) is false of the code: refuted by witnesses; proved whenever the merge returns in a checked build, and that it returns for trees without shared addresses in one half of the address space. |
| C57 | The root proof of the state tree states the roots of the map and the summary of the touched addresses | partial | `Node.root_proof_partial`, `Node.root_proof_stale_after_prune` | Proved for histories in which no touched address ends a block absent; for the others the claim is false of the code (finalization keeps a stale proof), shown by a witness. |
| C58 | A transaction completes whatever the order in which its programs arrive | partial | `Node.ingest_any_order_partial`, `Node.ingest_twice_refused`, `Node.ingest_from_first_never_completes`, `Node.ingest_power_of_two_never_completes`, `Node.ingest_wrong_slot` | Proved for cast lists of 2^b-2^m+1 members; for all other lengths the claim is false of the code (path one bit too long or tree not aligned), proved as refutations. |
| C59 | The proposer and the programs agree on the cast root | proved | `Node.cast_root_eq_commitment` |  |
| C60 | Address verification pins every present leaf to its position | proved | `Recproofs.leaf_address_is_position`, `Recproofs.leaf_address_from_root`, `Recproofs.addr_root_present_iff`, `Recproofs.honestAddr_valid`, `Recproofs.misplaced_leaf_rejected` | For trees of any height below 64 (the field size bounds addresses; a perfect tree of height 64 would have more leaves than addresses).  Trees of proofs: that an accepted proof really is the root of such a tree is C70. |
| C61 | Summary trees commit to exactly the present leaves | proved | `Recproofs.summary_commits_to_present_leaves`, `Recproofs.sum_root`, `Recproofs.sumExample_valid` | The root is present iff some leaf is; its hash is the root of the tree with the absent leaves contracted. |
| C62 | Unpruned trees commit to all leaves | proved | `Recproofs.unpruned_root`, `Recproofs.unpruned_root_binds`, `Recproofs.unpruned_complete`, `Recproofs.unpruned_vm_root_binds`, `Recproofs.unpruned_vm_complete` | Both hashings of the branch: field hashing (the root is the Merkle root of the leaves) and byte-wise hashing (`vm_hashing`), where the digest is that of some byte split (see C69), so the theorems are that the root still binds the leaves and that the native byte-wise root has a proof. |
| C63 | Merge proofs prove interleavings | partial | `Recproofs.merge_is_interleaving`, `Recproofs.merge_no_loss`, `Recproofs.every_interleaving_has_proof`, `Recproofs.merge_proof_is_interleaving_partial`, `Recproofs.forged_merge` | Proved for every tree of merge proofs (merge_is_interleaving, and the converse every_interleaving_has_proof).  FALSE of accepted proofs alone: the branch circuit does not check its public verifier data (forged_merge), so merge_proof_is_interleaving_partial assumes the caller compared it. |
| C64 | Accumulated deltas are the combined effect of the events | proved | `Recproofs.delta_is_combined_effect`, `Recproofs.delta_proof_iff`, `Recproofs.exampleDelta_accumulates` | delta_proof_iff characterises the provable deltas exactly.  Event types other than 0..5 are accepted and contribute nothing. |
| C65 | A matched delta only allows authorised state changes | partial | `Recproofs.match_leaf_iff`, `Recproofs.match_leaf_authorised_partial`, `Recproofs.match_tree`, `Recproofs.overdraft_accepted` | match_leaf_iff is an exact characterisation.  FALSE in part: writes need not be by the owner (C71), credits wrap around in the field (overdraft_accepted). |
| C66 | State updates change only summarized leaves | proved | `Recproofs.state_update_sound`, `Recproofs.state_update_from_known_state`, `Recproofs.state_update_complete`, `Recproofs.merkle_binds` | For state trees of height below 64; state_update_complete is the converse for the honest prover. |
| C67 | A block proof certifies an unbroken chain of state transitions from genesis | partial | `Recproofs.block_chain_partial`, `Recproofs.block_chain_accepted`, `Recproofs.forged_block`, `Recproofs.forged_block_no_chain` | FALSE of the code: verify does not compare the public verifier data with the block circuit's own, so a proof of the base circuit is accepted as any earlier history (forged_block).  block_chain_partial: with the comparison there is an unbroken chain whose length is the height; block_chain_accepted is the converse. |
| C68 | The Merkle root determines the leaves | partial | `Sdk.merkleize_is_tree`, `Sdk.root_binds_digests`, `Sdk.tree_leaves`, `Sdk.root_binds_partial`, `Sdk.root_not_binding_across_lengths` | Explicit about collisions: equal roots give equal digests in order for arbitrary lists, unless two hashed pairs collide or a leaf is itself the hash of a pair; equal addresses make the second exception unnecessary. Without it the property is false across lengths, as for the cast list commitment (witness). |
| C69 | A byte-wise hash inside a proof is the hash of the canonical bytes | partial | `Recproofs.splitBytes_iff`, `Recproofs.byte_split_canonical`, `Recproofs.byte_split_ambiguous`, `Recproofs.byte_hash_not_canonical`, `Recproofs.byte_hash_binds` | FALSE of the code: an element below 2^32-1 has two accepted byte splits (value and value + p), so a byte-wise hash in a proof need not be that of the canonical bytes.  Proved: canonical for the other elements (byte_split_canonical), and the hash still binds the elements (byte_hash_binds). |
| C70 | An accepted unbounded proof certifies a whole tree of proofs | partial | `Recproofs.accepted_branch_tree_partial`, `Recproofs.valid_tree_accepted`, `Recproofs.forged_children_accepted`, `Recproofs.accepted_branch_step`, `Recproofs.forged_address_root` | FALSE of the code: the public `verifier` of an unbounded proof is the one its children are checked against, and the consumers never compare it with the branch circuit's own; a forged child (proof of another circuit with the same shape) is accepted.  accepted_branch_tree_partial: with the comparison the whole tree is certified. |
| C71 | Only the owner of an object can write it, debit it or give it away | partial | `Recproofs.write_by_stranger_accepted`, `Recproofs.debit_by_stranger_accepted`, `Recproofs.give_is_by_owner_partial` | FALSE of the code: old_owner is connected only when an ownership event is present, so a write or a debit by anybody is accepted.  give_is_by_owner_partial: transfers of ownership are by the owner. |
| C72 | Ensure events are enforced | partial | `Recproofs.ensure_not_enforced`, `Recproofs.ensure_enforced_with_write_partial` | FALSE of the code: the ensured value is connected to the object only if there is also a write. |
| C73 | A program's events reach the block unaltered | proved | `Recproofs.event_root_sound`, `Recproofs.event_root_determined`, `Recproofs.event_roots_agree`, `Recproofs.event_root_complete` | Recursion idealised: a verified proof means its circuit's relation holds; hash collisions excluded only among the inputs hashed (GoodHash). |
| C74 | A program leaf proof stands for the program it names | partial | `Recproofs.program_leaf_sound_partial`, `Recproofs.program_id_not_tied`, `Recproofs.forged_program_event` | Property is false: the program circuit's verifier data is a private witness and its hash program_verifier_hash is computed but never connected to the program id, so a leaf proof for any id and any events exists whenever some circuit with the common data accepts everything (negation proved). The partial theorem ties the leaf to some program circuit. |
| C75 | A transaction proof covers all its programs and their events | proved | `Recproofs.transactions_sound`, `Recproofs.cast_list_determined` | Programs are those some program circuit accepted (C74). cast_list_determined assumes that ids are not hash values of the inputs considered. |
| C76 | A commitment to events determines the events | proved | `Sdk.event_hash_input`, `Sdk.event_hash_binds`, `Sdk.canonical_event_binds`, `Sdk.event_commitment_binds`, `Sdk.emitted_events_bound` | Under collision-freeness of the hash on exactly the byte strings hashed for the two commitments. |
| C77 | A clean shutdown certifies what the program did | proved | `Sdk.clean_shutdown_certifies` | The event part is stated for tapes in order of address; for other orders the commitment is the one merkleize computes (C40). |
| C78 | A block’s transaction proof covers exactly the events of its completed transactions | proved | `Node.block_root_covers_completed`, `Node.event_proof_root_eq`, `Node.other_transactions_untouched`, `Node.completed_iff_all_arrived`, `Node.comb_fails_only_with_merge` | For every history of calls that does not panic (builds with overflow checks, events given in order of address). When merging panics is C56, when a transaction can complete is C58. |
| C79 | A block changes the state only by the events of its transactions | proved | `Recproofs.block_step_sound`, `Recproofs.block_events_exact`, `Recproofs.block_owner_change_authorised`, `Recproofs.block_untouched` | Owner checks are for creation and deletion as in the circuit; writes by non-owners are C71. Programs are those some program circuit accepted (C74). |
| C80 | An object's history along the chain | partial | `Recproofs.block_history_partial`, `Recproofs.owner_kept`, `Recproofs.data_kept`, `Recproofs.credits_add_up` | owner_kept, data_kept and credits_add_up hold for every history. That an accepted proof has a history needs the public verifier to be the block circuit's own, which verify does not check (C67). |
| C81 | A proved hash call stores the Poseidon2 hash of the message in memory | partial | `Circuits.Poseidon.permutation_sound_partial`, `Circuits.Poseidon.permutation_complete`, `Circuits.Poseidon.permutation_forged`, `Circuits.Poseidon.permutation_not_forced`, `Circuits.Poseidon.hash_call_sound_partial`, `Circuits.Poseidon.sponge_complete`, `Circuits.Poseidon.any_message_hashes_to_zero`, `Circuits.Poseidon.ghost_hash_write`, `Circuits.Poseidon.output_address_free`, `Circuits.Poseidon.hash_without_output`, `Circuits.Poseidon.digest_bytes_partial`, `Circuits.Poseidon.digest_bytes_ambiguous`, `Circuits.Poseidon.digest_bytes_complete`, `Circuits.Poseidon.honest_sponge_trace`, `Circuits.Poseidon.honest_hash_tables` | Completeness is proved for every run; soundness is false of the code and the negation is proved (permutation_forged, any_message_hashes_to_zero: the columns holding the cubes of S-box inputs are not constrained, so every message can be given the digest 0; ghost_hash_write, output_address_free, hash_without_output, digest_bytes_ambiguous are further gaps). The _partial theorems say what holds under the missing constraints. |
| C82 | The public commitments of a proof are the commitments the program read | partial | `Circuits.Commit.public_values_fixed_partial`, `Circuits.Commit.full_read_is_public_partial`, `Circuits.Commit.full_reads_agree`, `Circuits.Commit.honest_commitments`, `Circuits.Commit.honest_public_accepted`, `Circuits.Commit.order_not_enforced`, `Circuits.Commit.public_values_forged`, `Circuits.Commit.unread_commitment_arbitrary`, `Circuits.Commit.short_read_unprovable` | False of the code, negation proved: the challenges do not depend on the public values, so after they are drawn 26 of the 32 values can be chosen freely and six more computed (public_values_forged), and any reordering is accepted (order_not_enforced). Proved: values fixed before the challenges are a permutation of the flagged rows except for a negligible fraction of challenges; a full read delivers the public values up to order; all full reads agree. Honest runs: exactly those whose reads ask for at least 32 bytes balance (honest_commitments, short_read_unprovable). |
| C83 | Every execution has an accepted memory table that records all its memory accesses | partial | `Circuits.memory_table_holds_history_partial`, `Circuits.memory_table_accepted_partial`, `Circuits.source_tables_accepted`, `Circuits.memory_lookups_balance_partial`, `Circuits.wrapped_digest_rejected`, `Circuits.overlap_rejected` | Proved for every run of every program of at most 2^30 - 2 steps, in any order of the program's memory maps and with any padding, except runs in which a hash digest wraps around the address space and programs whose read-only and writable memories overlap; for those the claim is false of the code (wrapped_digest_rejected, overlap_rejected). |
| C84 | Every execution has accepted register tables that record all its register accesses | proved | `Circuits.register_table_contents`, `Circuits.register_tables_accepted`, `Circuits.register_history_values`, `Circuits.decoded_rd` | Contents, acceptance (constraints, range checks, lookups) and values of the generated register tables for every run from the initial state with fewer than 2^31 steps whose instructions without destination name x0 (true of decoded ones: decoded_rd). |
| C85 | Every successful execution can be proved | partial | `Circuits.honest_proof_exists_partial`, `Circuits.honest_proof_verifies_partial`, `Circuits.honest_run_without_proof` | False in general: honest_run_without_proof gives a completed run whose generated tables violate the constraints. Proved for all runs that satisfy FullRun; each excluded case is a failure proved elsewhere (overlap_rejected, wrapped_digest_rejected, honest_division_unprovable, honest_jump_unprovable, honest_log_unprovable, empty_read_then_read_unprovable, short_read_unprovable), or a bound on the run's length (2^30 steps). |
| C86 | Shrinking a recursive proof reaches any reachable target degree | partial | `Circuits.Shrink.shrink_ok_partial`, `Circuits.Shrink.shrink_panics`, `Circuits.Shrink.shrink_incomplete` | False of the code: the loop wraps the circuit it was called with instead of the last wrapper, so a second round never lowers the degree and panics (shrink_panics, shrink_incomplete). Proved: the exact condition for success (a single wrap meets the target) and that the result is a valid proof with the same public inputs. |
| C87 | The program id identifies the program | partial | `Circuits.ProgramId.program_id_deterministic`, `Circuits.ProgramId.program_id_identifies_partial`, `Circuits.ProgramId.program_id_forgets_load_sign`, `Circuits.ProgramId.program_id_binds`, `Circuits.ProgramId.program_id_length` | False of the code: the packed instruction of the program table leaves out the signedness of loads, so LB and LBU (LH and LHU) programs share their id (program_id_forgets_load_sign). Everything else is identified (program_id_identifies_partial). |
| C88 | The program id in a recursive VM proof is the program's id | partial | `Circuits.ProgramId.circuit_id_complete`, `Circuits.ProgramId.circuit_id_sound_partial`, `Circuits.ProgramId.circuit_id_binds_partial`, `Circuits.ProgramId.circuit_id_ambiguous`, `Circuits.ProgramId.circuit_id_top_bytes_free`, `Circuits.ProgramId.circuit_id_collides` | False of the code: limbs below 2^32-1 have two byte splits, and, since plonky2 adds no gate for a range check of zero bits, the top byte of every limb is free, so that different programs have common ids. Proved for limbs of at least 2^32-1 and, as to binding, for range checks of zero bits that mean zero. |
| C89 | A table's polynomial check stands for its constraints on every row | proved | `Circuits.Air.table_check_sound`, `Circuits.Air.table_check_complete`, `Circuits.Air.air_sound`, `Circuits.Air.air_complete`, `Circuits.Air.satisfied_iff`, `Circuits.Air.fullAir_rows` | Openings are taken to be the values of committed polynomials of the right degree (FRI is not modelled); the challenges are arbitrary, not hashes. The quotients are computed as polynomial quotients, the code interpolates them on a coset. |
| C90 | The declared constraint degree covers every constraint | proved | `Circuits.Air.all_tables_poly`, `Circuits.Air.degreeBound_lt` | The tables without constraints (Unstark) need none. The columns of each table are listed in Degree.lean. |
| C91 | Each running-sum opening is checked for the lookup and challenge it was made for | partial | `Circuits.Plumb.openings_used_once`, `Circuits.Plumb.prover_openings_accepted`, `Circuits.Plumb.verifier_decides_partial`, `Circuits.Plumb.circuit_decides`, `Circuits.Plumb.circuit_opening_count`, `Circuits.Plumb.circuit_openings_used_once`, `Circuits.Plumb.extra_values_accepted`, `Circuits.Plumb.too_few_openings_panic` | False of the native verifier when the proof gives more value lists than there are public sub tables (extra_values_accepted: the second challenge's sum is then compared with the extra values under the first challenge); proved when the numbers agree, and without condition for the recursive verifier, whose circuit fixes the numbers. The native verifier aborts rather than returning an error when a table has too few openings (too_few_openings_panic). |
| C92 | The hash permutation is a permutation with Poseidon2's linear layers | proved | `Circuits.Poseidon.external_is_circulant`, `Circuits.Poseidon.internal_is_diagonal_plus_ones`, `Circuits.Poseidon.permutation_bijective`, `Circuits.Poseidon.internal_injective` | The constants are in the plonky2 fork and not in this repository: the theorems hold for all of them, and internal_injective says which diagonals make the internal layer invertible. |
| C93 | The batch prover and verifier find every table's polynomials in their places | proved | `Circuits.Batch.sorted_degrees`, `Circuits.Batch.batch_places`, `Circuits.Batch.batch_openings` | Hypotheses: no kind of table occurs twice, all polynomials of a table have its length, and (for the Merkle layers) every table has at least one polynomial in the oracle, which the prover asserts. |
| C94 | Batch verification enforces the constraints of every table in the batch | partial | `Circuits.Batch.batch_accepts_any_trace`, `Circuits.Batch.not_batch_sound`, `Circuits.Batch.batch_sound_partial`, `Circuits.Batch.batch_complete` | False of the code: batch_verify_proof never calls validate_proof_shape for the tables in the batch, so the last table of a degree can leave out the openings of its quotients, for which the code then checks nothing, and commit to zero quotients; batch_accepts_any_trace shows that any trace passes. batch_sound_partial: with the shape check it holds. FRI is idealised (the claimed openings and the committed values are the same polynomial in the batching challenge). |
| C95 | The batch verifier derives the prover's lookup challenges | partial | `Circuits.Batch.same_transcript_iff`, `Circuits.Batch.not_same_transcript`, `Circuits.Batch.same_transcript_partial` | False for lists in another order than that of the tables (the prover goes through the tables, the verifier through the list); it holds exactly for lists in table order, among them PUBLIC_TABLE_KINDS. |
| C96 | The batch FRI reduction stops at every table size and ends small | proved | `Circuits.Batch.arity_schedule` |  |
| C97 | A Poseidon signature shows knowledge of the private key of one public key | partial | `Signatures.signs_iff`, `Signatures.signs_complete`, `Signatures.not_key_unique`, `Signatures.key_unique_partial` | The uniqueness part is false of the circuit: it compares the 64-bit words of the public key as field elements, so two byte strings that differ by the order of the field in a word are both accepted. key_unique_partial: the keys agree modulo the order of the field, word by word, and there is only one if no hash element is below 2^64 - p. The hash function is a parameter; the proof system is not modelled. |
| C98 | The public key of a SHA-256 or Keccak-256 signature is the digest, and the library's own public key works | partial | `Signatures.bytes_forced`, `Signatures.key_is_digest`, `Signatures.not_own_key`, `Signatures.own_key_partial` | The second part is false: hash_private_key passes the digest through four field elements, so it comes back changed (or, with debug assertions, panics) if one of its 64-bit words is at least the order of the field; own_key_partial: it works exactly for the other digests. SHA-256 and Keccak-256 themselves (plonky2_crypto) are parameters. |
| C99 | The counter example changes the counter by exactly one per call | proved | `Apps.counter_run_iff`, `Apps.counter_complete` | rkyv is a parameter (any partial decoder; reading back what was encoded is assumed for completeness only). |

## How each was proved

* C01, C02: independent RV32IM AST, bit-field decoder and semantics over `BitVec` (`SpecRV.lean`);
  case analysis on opcode and funct fields, `BitVec` algebra. C09, C10: integer arithmetic.
* C03–C08, C11, C15–C17: invariants by induction over the steps of an execution.
* C12–C14: induction over lists of segments/words; parsing of the ELF byte format (the `elf` crate) is
  not modelled: the model starts from header fields and the program-header table.
* C20–C24, C36, C37, C39: from constraints over `ZMod p` to integers by range bounds.
* C25, C26, C31–C33: induction over tables of arbitrary length. C28: degree bound on rational functions.
  C35: the generated row of an arbitrary step is shown to satisfy every constraint.
* C81: the round function is folded over the rounds; the sponge by induction over the rows of a call;
  completeness by identifying the generated rows with those of the specification's calls.
* C82: the public check as a lookup against the table of public values; a construction of six field
  elements with given sum and sum of inverses.
* C83: a stable sort is determined by its sublists of equal keys; the sorted table is identified with the
  concatenation of the histories of the addresses, each a chain by induction over the run.
* C84: the lookup columns are enumerated per step; accesses with equal sort keys are equal, so the sorted
  table is unique; the history of each register is a chain by induction over the run.
* C85: `generate_traces` as one function from the record of a run to all tables; every lookup is balanced by
  a permutation of its rows with nonzero filter or by counting, then C28's completeness gives the verifier's
  checks.
* C86: circuits abstract but for their degree, proofs ideal; the loop unrolled. C87: a stable sort of the same
  entries is unique; the hashed lists are taken apart. C88: the splitting gadget is characterised exactly, for
  both readings of a range check of zero bits (documented: zero; plonky2: no gate).
* C89: polynomials over any extension field: the vanishing polynomial takes the constraint values on the subgroup;
  roots are counted. C90: a syntactic degree calculus for constraint expressions, applied to every table.
* C91: the queues of openings as functions from table kinds to lists; a running sum is named by its challenge, lookup and
  table; induction over the nested iteration of the verifier.
* C92: the linear layers as matrices; the S-box has a left inverse because 7 is invertible modulo p - 1.
* C93: the stable sort of the polynomials equals the concatenation of the groups of falling degree (a list in falling order
  is determined by its parts of equal key); the loops' counters by invariants; plonky2's oracle and starky's `fri_instance`
  are modelled as their documentation says. C94: C89's model of the check without the shape check; FRI is idealised.
  C95: the lists of observed caps. C96: the degrees passed form a chain of steps of 1 to 3.
* C97, C98: `Signatures/`; the satisfying assignments of the signature circuits with the hash function as a parameter.
* C99-C101: `Apps/`; the example programs as functions on the SDK's tapes in the VM; their loop is characterised once for
  all handlers by induction on the messages left, and each handler against a small specification of one answered call.
* C109: `Circuits/Recursive`; both verifiers line by line over the same parameters for FRI, challenger and extension field; the
  two transcripts, lookup variables, quotient checks and sums are proved equal, then an equivalence of the whole.
* C110: `Circuits/RecursiveBatch`; the same for batch proofs, on top of the lemmas for C109 and the model of batching (C92-C95).
* C111: `Circuits/ProveTraces`; the prover: the constraints together with the lookup checks form one list of constraints
  (`fullAir`) whose vanishing polynomial the coset values interpolate (C89), so that the verifier's equation holds at every
  point; the sums by C28, C38 and C91.
* C112: the dual of C111, round by round: the constraints with the lookup checks are one list (`fullAir`) whose violated
  row gives a nonzero polynomial in alpha and then in zeta (C89 over the extension); if no row is violated the running sums
  are those of C28, whose bound is on the challenges of the lookups.
* C114: `Circuits/TheoremsBatchSound`; as C112, for openings that both verifiers check in the same way (`Passes`), with the
  exceptional sets chosen before the proof; for the circuit by C110.
* C115: `Circuits/ProveBatch`, `TheoremsProveBatch`; the batch prover: public tables one by one with one challenger, the others
  over three shared oracles; per table as in C111 (`quotientsOk_of_spec`), places in the oracles by C92, sums as in C111
  (`honest_sums`), the circuit by C110.  The batch verifier compacts the challenger where the prover does not: `Settled`.
* C116: `Sdk/Bundle`; the recording by C41, C107; a strictly sorted list is determined by its members; a stable sort by a flag is a
  partition; the tapes of C107; runs of small programs step by step for the refutations.
* C117: `Sdk/IdText`; texts as lists of characters; one lemma says which digit has which value, for all characters; the rest by
  induction over the text or the entries of the map.
* C118: `Apps/Native` (the dispatches and mains as native actions), `Apps/SpecNative` (a program is run as itself);
  induction over nested calls gives the `Run` of C99/C100, C107 gives the tapes and the shutdown.
* C120: `Circuits/Debug`, `TheoremsDebug`; the multiset's total filter per row as an invariant of the loop, then C111 and C115.
* C121: `Runner/Execute`, `TheoremsExecute`; induction over the run of the machine with C01 for each step, then the two appended instructions.
* C119: `Apps/InputTape`, `SpecInputTape`; the loop by induction on the rest of the call tape, the reads by C45, the native part as C118.
* C113: `Circuits/TheoremsForge`; refuted by replacing the halting row of the tables of a one-instruction program by a row
  with the packed instruction of the given program and a solved-for immediate; all other tables are those of the honest run.
  The part that holds (`TheoremsAccepted`, all lookups and constraints together): `Accepted` and the unchecked conditions `Closed`
  (`AcceptedSpec`) give a timeline of rows (skeleton), an instruction per row (ROM), values (registers, memory, tapes), hence by induction
  the run; `AcceptedHonest`/`AcceptedSizes` show that the tables of every short run are accepted and closed.
* C108: `Recproofs/Indices`; the index types as a universe of shapes, one equation for each Rust implementation; by induction
  over the shape, writing reduced to a sequence of writes at different positions.
* C107: `Sdk/Replay`; the native recorder with inputs, the CLI's tapes and the opening and closing of the tapes in the VM put
  together; by composing C41-C45, C49 and the profile-independence of `merkleize`, with the archive format a parameter.
* C38: `Circuits/LinComb`; the dense and the sparse form and the four evaluators, against a denotational specification of the
  expressions (`SpecLinComb`), by induction over the expression; `trace_sums_are_entry_sums` removes the simplification of C28 that
  a lookup's columns are already evaluated.
* C102, C105: `Node/Matches*`; the matcher as a state machine over proofs given by their public inputs, each proof succeeding
  when the circuit's relation of `Recproofs/` holds; an invariant relates the filed proofs to an observer's books.
* C103: the accumulator's tree (C78) and the matcher's tree are both brought to the root of the compressed binary tree.
* C104: `Blocks` as a state machine, related to an inductively defined log and to the block circuit's acceptance (C67).
* C106: `convert_event` on bytes and words.
* C29: structural induction over expressions; the cache is a heap with an invariant.
* C40, C41: refinement to the root of the address trie; exact characterisation of termination.
* C42–C49, C68, C76, C77: permutations, state-machine invariants, round trips.
* C50–C59, C78: structural induction, refinement to maps from addresses to objects.
* C60–C67, C69–C75, C79, C80: relations on public inputs, induction over proof trees of arbitrary shape.

## What the proofs found (defects of the pinned commit, each a theorem)

Runner: RWX segments end up in neither memory although the comment in `elf.rs:183` says otherwise (C13);
a word image with a word at 0xFFFFFFFC is rejected (C14).

Circuits: quotient sign not forced to be a bit, so quotients and remainders can be forged (C22);
`abs_diff` not range-checked for SLT/SLTU (C23); jump targets may be odd or below zero, and are free in
the last row (C24); immediates not range-checked, so any instruction can run as NOP or HALT (C27);
register table need not start with an initialisation, the honest initialisation lists x31 twice (C26);
the 32-bit range check accepts anything with 1024 extra rows (C30); cancelling ADD/BLT-taken rows write
any register, the BLT-taken range check is in no lookup (C34); LW result, SW/SB/SH value and LB/LBU sign
free (C36); next pc after a system call free (C37); the columns that should hold the cubes of the S-box
inputs are unconstrained, so every message can be given the digest zero, digests can be written without a
hash call or elsewhere (C81); public commitments are not in the transcript, so they can be chosen after
the challenges, and their order is free (C82); honest executions that cannot be proved:
reads of a commitment tape of fewer than 32 bytes (C82), digests written across the end of the address
space, overlapping segments (C83), signed
division of −31 by −1 (`-2 ^ 31` is XOR in Rust, cpu/generation.rs:241–280), odd JALR targets, log and
unknown system calls, pc wrapping round (C35).

SDK: `merkleize` diverges (release) or panics (debug) on lists whose addresses differ only in the top bit
(C41); the canonical order is bytewise but `merkleize` assumes the little-endian order, the VM enforces
neither, and the owner of an object is not compared (C43); a program can skip its own calls, native tapes
with nested calls can be rejected (C44); short reads abort, `Current(0)` at the end moves back, forward
seeks abort, `End` is wrong (C45); the release allocator wraps (C48); roots do not bind across lengths
(C68); native recordings that do not replay (C107); bundling drops programs that are not in the map, the call tape
hash is then another program's, and it contains the times of the reads (C116);
the documented text of the null program cannot be read (C117);
honest runs of the counter over two objects on different sides of 2^63 get no tapes, a native token transfer is recorded
with any key (C118); the input tape program asks for the fixed length of its tapes, so it cannot be called twice (C119);
the prover's debug mode does not look at public sub tables (C120).

Node: addresses in different halves of the address space panic or give a wrong ancestor (C51); a third
event on an address panics, release builds order wrongly (C56); the proof goes stale after pruning (C57);
the ingest path has one bit too many for most cast-list lengths: powers of two ≥ 4 never complete (C58).

Recproofs: the public verifier data of unbounded proofs is never compared with the circuit's own
(`merge/embed.rs:148`, `match_delta.rs:149`, `verify_block/core.rs:278,346,424`, `verify_block.rs:358`), so
proofs and whole block histories can be forged (C63, C67, C70); byte splits are not canonical (C69);
`old_owner` connected only with ownership events: writes and debits by strangers, overdrafts (C65, C71);
ensure not enforced without a write (C72); the program verifier key is never tied to the program id (C74).

Program ids and recursion: LB and LBU (LH and LHU) programs share their id (C87); the exposed id of a recursive
proof has free top bytes (C88); shrinking in more than one step always panics (C86).

## What is not modelled

Networking, CLI and RPC; FRI, Fiat–Shamir, plonky2 gates and starky internals; the round constants of Poseidon2
(parameters); rkyv (de)serialisation; command-line wrappers other than bundling;
parsing of ELF bytes; performance.

## Trusted base

Lean 4.33.0's kernel. Axioms: every theorem depends at most on `propext`, `Classical.choice` and
`Quot.sound`; none is added. No `native_decide`, no `bv_decide`; closed decidable facts use
`decide +kernel`, i.e. kernel reduction. Beyond the kernel one has to trust that the hand-written model
is faithful to the Rust source (no code was run; every definition cites the lines it models) and that the
specifications say what the English properties say.
