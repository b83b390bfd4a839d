# Formal model of mozjpeg in Lean 4 — design

## Trusted base

* Lean 4.33.0's kernel, and the axioms `propext`, `Classical.choice`, `Quot.sound` (checked with
  `#print axioms` for every claimed theorem). No axiom of our own, no compiled-code proofs.
* The *model* (files `lean/Verif/**`) is a hand translation of the C code; each definition cites the file
  and lines it models. The tie from the C text to the model is reading only: the code is not run here.
* Configuration modelled: a 64-bit build (`SIZEOF_SIZE_T == 8`, `BIT_BUF_SIZE 64`), **no SIMD**
  (`WITH_SIMD` undefined: the portable C paths), `C_/D_` feature macros all on, two's complement,
  arithmetic right shift, `AVOID_TABLES`, `JPEG_NBITS` table modelled as the bit length it tabulates.
* C integers are modelled as unbounded `Int`/`Nat` unless a wrap/cast is visible in the source
  (`(JOCTET)`, `(JCOEF)`, `(UINT8)`, `size_t` bit buffers), which is then written out as `% 2^k`.  Where a C
  `int`/`long` could overflow we prove bounds or state the guard.
* Undefined behaviour (out-of-range index, bad shift) is a distinct outcome wherever the property is about it.

## Layout

Per area: `Model` file(s) (the code), `Spec` definitions (independent of the model), helper lemmas, and a
`Props` file holding only property theorems with a non-vacuity `example` next to each.

## Plan per property

| id | modelled | proof |
|----|----------|-------|
| C01 | jchuff encode (64-bit put_buffer, stuffing, restart), jdhuff slow path (64-bit get_buffer, lookahead, restart markers) | refinement of both bit buffers to bit lists, prefix-code lemma, induction over blocks/MCUs |
| C02 | jcphuff/jdphuff four MCU routines, EOBRUN, correction bits | bit-list level round-trip, induction over blocks, composition over scans |
| C03 | jclossls/jdlossls predictors, jclhuff/jdlhuff | per-sample inverse mod 2^16, induction over rows |
| C04 | `Arith/`: jaricom.c table, arith_encode, finish_pass, arith_decode; decoding procedures as a free monad over `ask bin` | exact intervals `[low, low+a)/2^(16+N)` on both sides; encoder: bytes held (written, pending zeros, buffer, stacked FF) + register = low; decoder: code - low = register; final code lies in the last interval, has at most N+1 significant bits |
| C05 | jpeg_gen_optimal_table | forest invariant for Huffman merge, Kraft sum preservation, pseudo-symbol depth invariant |
| C06 | EMIT_BYTE/FLUSH/emit_bits/emit_restart | induction on emission |
| C07 | both derived-table builders | canonical code characterisation by left-justified offsets |
| C08 | a checked copy of jpeg_fill_bit_buffer, jpeg_huff_decode, decode_mcu_slow in which every index, shift and overflow is tested (`Huff/Check`) | checked = unchecked; bits after the end of a segment read as zeros |
| C09 | read_markers, read_restart_marker, decode_mcu with a suspending source, repeated calls, blocks as left by a suspension (`Mark/Chunk*`, `Rst/Chunk`, `Huff/Chunk*`, `Huff/Feed*`) | simulation of the run on all the data; assignments made before a suspension are made again |
| C10 | emit_* and get_* marker routines | parse (emit x ++ rest) = (x, rest) |
| C11 | get_* routines on arbitrary bytes | post-conditions by case analysis/induction |
| C12 | jdatadst memory destination with a heap model | refinement to "append bytes" |
| C13 | `Out`: every store of the Huffman encoder through its output pointer (EMIT_BYTE with the speculative zero, FLUSH, LOAD/STORE_BUFFER with the 512-byte local buffer, dump_buffer), MCU retry after suspension; emit_byte of jcmarker/jcphuff/jcarith | simulation: stores in memory = appending bytes; a block is at most 496 bytes; two kinds of manager (always room, always suspension), any buffer sizes |
| C14 | jdatasrc | refinement to an infinite virtual stream |
| C15 | quality scaling and table scaling (integer part; float quality restricted to integers as in jpeg_set_quality) | arithmetic |
| C16 | compute_reciprocal, quantize | Granlund–Montgomery style argument |
| C17 | jpeg_simple_progression | finite configuration + induction over components |
| C18 | jpeg_search_progression, select_scans driver loop | invariant over the pass loop for arbitrary size functions |
| C19 | validate_script | equivalence with an independent spec, by induction over scans |
| C20, C21 | color conversion tables | integer linear arithmetic bounds |
| C22, C23 | jdsample / jcsample | induction over rows |
| C24, C26 | transupp | index algebra on coefficient arrays |
| C25 | exact real IDCT | cosine symmetry in Mathlib |
| C27 | setup computations, MCU walks | ceil-division arithmetic, bijection |
| C28 | jcicc/jdicc | chunk list algebra |
| C29 | Api/Comp (jcapimin, jcapistd, jctrans, jcicc), Api/Decomp (jdapimin, jdapistd, jdtrans, jdmaster, jdinput, jcomapi): the fields that decide which call is accepted; outcome of the work and of the input arbitrary | invariant tying the object to a phase computed from calls and results alone; bisimulation for reuse |
| C30 | restart resync | case analysis, termination |
| C31 | turbojpeg size functions | arithmetic with explicit 64-bit bound checks |
| C32 | jidctint islow + range table | algebra; index bound by mask |
| C33 | jmemmgr pools | invariant over op lists |
| C34 | quantize_trellis decision logic over an abstract ordered cost type | DP optimality by induction |
| C35 | jcext | record algebra over op lists |
| C36 | the transform routines with partial edge iMCUs | index algebra, as C24 |
| C37 | coefficient controllers of both sides (jccoefct, jctrans, jdcoefct) | bijection of MCU walks (C27) + round trip of the entropy coder |
| C38 | jpeg_gen_optimal_table | Huffman optimality by exchange, against every assignment satisfying Kraft |
| C39 | the statistics pass of jchuff + C05 + C01 | composition |
| C40 | DC trellis of quantize_trellis | DP optimality by induction over blocks |
| C41 | save_marker / jpeg_save_markers / jpeg_write_marker | round trip over marker sequences |
| C42 | virtual arrays of jmemmgr with a backing store | refinement to an in-memory array, induction over access histories |
| C43 | `Merge/Row` (jdmrgext.c, jdmrg565.c, jdcol565.c, tables of jdmerge.c), `Merge/Model` (merged_2v/1v_upsample, process_data_simple_main, read and skip) | loop invariant "first x pixels written" for every row routine, equality with the separate routines of C20/C21/C33's models; invariant over histories (position of the row group counter, spare row holds the next line, rows_to_go); excluded situations as counterexamples |
| C46 | jpeg_skip_scanlines on top of C44's model | the state after a skip is a state reached by reading every line of another source (one row changed) that gives the same later lines; calls do not depend on earlier output; invariant over histories; the excluded situations as counterexamples |
| C44 | jdmainct, jdsample driver, jpeg_read_scanlines | invariant of the row-pointer lists per controller state, induction over calls |
| C47 | the full-size islow IDCT against the real IDCT | error bound by exact rational matrices and interval bounds of the cosines |
| C49 | `Arith/McuModel`: all MCU routines of jcarith.c/jdarith.c, restarts, scans; `Arith/Image`: script-level encode/decode | decisions of an MCU replayed by the decoder's procedure (free monad), segments by C04, restarts by C30, scans by the geometry lemmas of C02/C03 |
| C50 | `Arith/Safe`: the decoder of C49 with every array access and register range checked (`decAScanChk`) | predicate on all runs of the decoding procedures (bins in range, blocks touched in the band only) by induction on the procedures; run-time invariant `DS.Fit` (registers, bins, an end-of-image marker ahead) over MCUs and restarts |
| C48 | decode_mcu_fast with checked buffer reads, the fall-back to the slow path | potential function for the bytes left; both paths against an ideal bit-string decoder |
| C51 | `Fdct/Dering`: catmull_rom and preprocess_deringing, float operations as rationals with an arbitrary rounding function per operation | interval bounds through the float expression; loop invariant of the zigzag walk (finished part, untouched part, sample before a run is below the maximum); sum bounded by counting; 12-bit counterexample |
| C52 | `Fdct/Islow`: jfdctint.c with every JLONG and DCTELEM value checked; `Fdct/Pipeline`: forward_DCT (convsamp, deringing, DCT, reciprocal quantization, clamp) | the kernel is an integer matrix (`IslowLemmas`); its distance to the cosine matrix and the two descales give the error; ranges by the energy identity (`Orth`: the exact DCT is orthogonal) |
| C53 | the pipeline above followed by the IDCT model of C44/C47 | quantization error per coefficient through the exact IDCT (`idct_fdct`), the two accuracy theorems, and at most one AC coefficient can be clamped (energy) |
| C54 | `Prog/Feed`: the four MCU routines of jdphuff.c with every access and shift checked, suspension with the blocks as it leaves them, undoit, restarts; consume_data with data arriving in pieces | each routine against the unchecked one of C02 (`FeedSafe`), rerun after suspension gives the same result (`FeedLemmas`, `FeedRefine`: corrections idempotent, new coefficients undone), simulation of the run on pieces by the run on all data (`FeedProps`) |
| C55 | `Quant1`: all of jquant1.c, every table access checked, start_pass with its mode switches, jinit | invariant of the counts loop; palette and index tables as mixed-radix digits; break points in closed form (`pick`); F-S array equals the textbook 2-D serpentine diffusion (`RowDiffused`); calls compose; every reachable state keeps `Static` |
| C56 | `File`: whole files. Writer: script check, geometry, headers, per scan restart_in_rows, statistics pass with finish_pass_gather, scan header, data, EOI. Reader: read_markers, initial_setup, per scan latch_quant_tables, the decoder chosen by the frame, read_markers resumed with the marker the decoder found. Composed of the models of C01, C02, C05, C10, C19, C27, C37, C41 and C49 | induction over the scans with the invariants `WInv` (compressor between scans), `Agree` (C10), `DInv` (coefficients sent so far) and `LatInv` (tables latched); each step: tables usable (`retab_ok`), header read (`one_header`), data read up to the next marker (`data_step`), reader resumed there (`resume_read`) |
| C57 | `Quant2`: all of jquant2.c - histogram, update_box/median_cut, compute_color, inverse colour map with its two pruning steps and incremental distances, both output functions, error limiter, start/finish pass, new_color_map; every array access, division and `long` overflow checked; the variables written out per component are functions on Fin 3 | shrinking scans find the bounding box (`Boxes`); every step of the loop is a step of the specification `Cuts`, whose boxes partition the cells (`Cut`, `Median`); sums bounded (`Colors`); pruning never drops the first nearest entry, Thomas's increments give the squared distances, so a filled cache holds nearest colours (`Nearest`, `Cache`: `CacheOk`); F-S array equals two-dimensional serpentine diffusion with limited errors (`Diffuse`); invariant over all histories of passes and palettes (`Props`: `Reach`, `Inv`) |
| C58 | `Smooth`: coef_bits bookkeeping of jdphuff.c/jdarith.c, smoothing_ok, decompress_smooth_data (virtual-array windows, row and column clamping, 25 sliding registers, ten estimates; accesses, divisions, overflow checked) | `Smooth.Spec` gives the weights as 5x5 matrices, rounding, limit and clamped window; refinement: registers = window by induction over columns, status = last scan that has the coefficient by induction over scans; consequences (unchanged, consistent, flat, no wrap) proved of the specification and transferred |
| C59 | `Crop`: jt_read_integer, jtransform_parse_crop_spec, the crop part of jtransform_request_workspace for all operations, do_crop_ext_*, do_wipe, do_flatten, do_reflect, do_drop, the dispatch of jtransform_execute_transform with crop offsets; transforms from `Transf` | grammar `IsSpec` equivalent to the parser; per axis `Selects`/`Extends`/`Aligned`/`Covers`/`Fills`; loop nests by `rows_nest` (each row may depend on what it held); reflection equals the 2w-periodic mirrored continuation `reflAt` by induction over the rounds of the loop |
| C60 | `Crop.Requant`: largest_common_denominator, dequant_comp, requant_comp, adjust_quant, with 16-bit wrap-around; the destination's tables as a function of the slot number | Euclid's loop is `Nat.gcd`; loop nest by `rows_nest`; induction over the components with the tables as accumulator (`adjust_exact`, `adjust_trim`), then composed with `drop_content` (`drop_values`) |
| C61 | `Ppm`: rdppm.c (all row readers), wrppm.c without colour maps, cmyk.h with exact arithmetic | a predicate on results that excludes `fault` for safety; grammars of whitespace, numbers and samples, induction over pixels and rows for contents (`load_content`), from which both round trips follow |
| C62 | `Gif`: rdgif.c; allocated memory holds arbitrary values | a predicate on results that excludes `fault`; invariant of the LZW tables (every entry refers to a smaller code), measure of what is left of the file; rows: explicit list of the interlaced order and its inverse |
| C63 | `Gif`: as C62 | specification: a decoder on the number that the data bytes make, with a list of strings as dictionary (`strings`); refinement: value of the unread bits is invariant under reloading the buffer (`reload_spec`), chains of table entries represent strings (`Str`), induction over codes (`text_spec`), from which `load_pixels` |
| C64 | `Gif`: wrgif.c | value of the bits written as invariant (`output_spec`); the compressor's strings are one ahead of the decoder's (`Inv`); hash table only sound (an entry stands for its string), at most one entry per string, so a free slot exists and the probe, whose step is prime to 5003, reaches it (`reach`) |
| C65 | `Gif`: emit_header, whole files of wrgif.c and rdgif.c | the header is evaluated symbolically for all sizes and maps (`start_header`); the data by C63 and C64; rows from the flat pixels because all have the same length |
| C66 | `Tga`: rdtarga.c, wrtarga.c | result predicate that excludes `fault`; the reader's state stands for a list of pixels (`Rep`: duplicates, rest of the packet, packets to come), one pixel per step; the header evaluated for all descriptions (`start_spec`); the writer's files are instances |
| C67 | `MapFile`: rdcolmap.c | adding colours one by one against `firsts` (list without repetitions); the number reader and headers of `Ppm`; rows and columns of a PPM file are one loop |
| C68 | `Switch`: rdswitch.c, scripts and tables | safety by suffixes of the file (a number of at most 18 digits fits a `long`); contents against grammars of the texts (`Script`, `List10`) |
| C45 | jcmainct, jcprepct, jpeg_write_scanlines | invariant of the conversion buffer, induction over calls |

Statuses are kept in `MANIFEST.json`.

## What each directory models

* `Common` — bit operations; the range-limit table of jdmaster.c prepare_range_limit_table.
* `Huff` — jchuff.c (jpeg_make_c_derived_tbl, emit path with the 64-bit put_buffer, byte stuffing, restarts, htest/gather pass,
  jpeg_gen_optimal_table) and jdhuff.c (jpeg_make_d_derived_tbl, jpeg_fill_bit_buffer, jpeg_huff_decode, decode_mcu_slow, process_restart)
  with jdmarker.c read_restart_marker/jpeg_resync_to_restart.  `Optimal.lean` has the merge loop; arrays are functions.
  `Abs` (bits ahead), `Ideal` (a decoder on an infinite bit string), `Check`/`Safe` (C08), `Fast`/`Mcu` (decode_mcu with both paths, the
  blocks as memory), `Chunk*`/`Feed*` (suspension).  Not modelled: SIMD encoder.  Here the output is a list to which bytes are
  appended; `Out` has the buffers and the pointer, and proves that it makes no difference (C13).
* `Out` — the sequential Huffman encoder over output buffers as memory, the destination manager as an arbitrary schedule of buffers and FALSE
  returns; a store outside a buffer is `fault`.  A block's coefficients are the same at a retry (jccoefct.c computes them again).
* `Prog` — jcphuff.c/jdphuff.c: the four MCU routines of both sides, EOBRUN, correction bits, gather pass, scans composed to a file. `Prog/Feed*`: the decoder with suspension.
  A call is a token shared by the gather and the output pass; mask loops are list walks.  Not modelled: trellis pre-set counters, dump_buffer.
* `Lossless` — jclossls/jdlossls, jcdiffct/jddiffct, jclhuff/jdlhuff.  Rows are lists; suspension not modelled.
* `Mark` — jcmarker.c, jdmarker.c, the checks of jdinput.c initial_setup.  The decoder's memory is a set of slots, every assignment is
  logged with its index; trace messages and application marker processors are not modelled.
* `Script` — jcparam.c jpeg_simple_progression/jpeg_search_progression, jcmaster.c validate_script and select_scans.  Trial scans are abstracted to their sizes.
* `Quant` — jcparam.c quality/table scaling, jcdctmgr.c compute_reciprocal and quantize.
* `Trellis` — jcdctmgr.c quantize_trellis; costs are exact rationals (or an arbitrary arithmetic for the shrinking theorem).
* `Color` — jccolor.c, jdcolor.c and their table builders (RGB565 is in `Merge`).
* `Samp` — all methods of jcsample.c and jdsample.c with checked reads and writes; SIMD versions not modelled.
* `Prep`, `Post` — main/prep controllers of the compressor; main controller, upsampling driver and line skipping of the decompressor (not modelled: raw data output; merged upsampling is in `Merge`).
* `Merge` — jdmerge.c, jdmrgext.c, jdmrg565.c, jdcol565.c, the read/skip driver with merged upsampling.
* `Fdct` — jcdctmgr.c deringing (integer version; the version for the float DCT is not modelled), jfdctint.c 8x8, forward_DCT for
  JDCT_ISLOW (saving unquantized coefficients for trellis quantization, JDCT_IFAST and JDCT_FLOAT are not modelled).
* `Quant1` — jquant1.c.  `Quant2` — jquant2.c (the BITS_IN_JSAMPLE precision check of the init function is not modelled).
* `Smooth` — jdcoefct.c smoothing_ok and decompress_smooth_data (not the loop that consumes input first, nor the IDCT call), the status update of jdphuff.c/jdarith.c.
* `Geom` — sampling geometry, per-scan setup, MCU walks, coefficient controllers.
* `Transf` — transupp.c transform routines (do_rot_90, do_transpose, ...), perfection test and trimming.  `Crop` — crop
  specification, crop geometry, extension, wipe and drop, and adjust_quant/dequant_comp/requant_comp (not modelled:
  32-bit overflow of the size arithmetic, which image sizes exclude).
* `Rst` — jdmarker.c next_marker, read_restart_marker, jpeg_resync_to_restart with warnings and suspension.
* `Idct` — jidctint.c islow 1x1..8x8 and jidctred.c: integer arithmetic exactly; sizes 9..16, ifast, float and SIMD are not modelled.
* `Api` — the state machines of the two objects (C29).  Not modelled: lossless/precision variants beyond the tests made before the state test,
  jpeg_alloc/save_markers (callable in any state), application code that writes the fields of the struct between calls (except the parameters named).
* `Ppm` — rdppm.c, wrppm.c (not modelled: colour maps, PPM_NORAWWORD), cmyk.h with rationals instead of `double`.
* `Gif` — rdgif.c; wrgif.c. Assumed: `in_color_space` is JCS_RGB before, as cjpeg sets it. Not modelled: messages, warnings and progress.
* `Tga` — rdtarga.c, wrtarga.c. Not modelled: progress, write errors; the virtual array of a bottom-up image is a list of rows.
* `MapFile` — rdcolmap.c, for all sample sizes. Not modelled: the check that the precision is that of the build, and memory allocation.
* `Switch` — rdswitch.c:29-285 (scan scripts, quantization tables), LP64, C locale. Not modelled: opening the file, messages, the command-line lists (`-quality`, `-qslots`, `-sample`).
* `IO` — jdatadst.c, jdatasrc.c.  `Icc` — jcicc.c, jdicc.c.  `Ext` — jcext.c.  `TJ` — size functions of turbojpeg.c.  `Pool` — jmemmgr.c.

Not modelled at all: SIMD code, the floating-point DCTs, the command-line programs' parsers, the other image readers/writers
(rdbmp, rdgif, wrbmp, ...), TurboJPEG apart from its size functions, arithmetic of C `double` beyond what is said above.

## Findings (behaviour of the code that differs from what one would expect)

Each was found while proving; those marked *proved* are theorems.

1. jcmarker.c emit_multi_dht: when a component's DC table was already emitted, `continue` skips its AC table, so a file whose components
   share the DC table but not the AC table is corrupt (*proved*: `C10_shared_dc_defect`); in lossless mode with a profile other than
   JCP_FASTEST no table is emitted (*proved*: `C10_lossless_no_tables`); emit_sos writes td = 0 for all components in lossless mode.
2. jdmarker.c get_sos searches only components with index < 4 (*proved*: `C10_component_limit`) and rejects scans that list
   components in decreasing order.
3. jcmarker.c emit_dri truncates restart_interval to 16 bits.
4. jcparam.c: the Klein chrominance table (index 5) misses one row; its last eight entries are 0.
5. jcdctmgr.c: `compute_reciprocal(quantval << 3)` takes a UINT16, so quantval >= 8192 wraps (multiples of 8192 give divisor 0).
6. jpeg_float_quality_scaling is not monotone: 0 < q < 1 gives more than 5000, q <= 0 gives 5000.
7. jpeg_gen_optimal_table: `UINT8 bits[]` overflows if 256 symbols share a length; the sentinel 1e9 breaks merging when the total
   count exceeds 1e9; JERR_HUFF_CLEN_OUTOFBOUNDS is reachable from a total of fib(35) - 1 on.
8. jcdctmgr.c trellis_eob_opt: the last loop leaves out accumulated_block_cost[i]; DC trellis does not check that a code exists.
9. jdatadst.c: between the first overflow and term_destination `*outbuffer` dangles (*proved*: `outbuffer_dangles_before_term`);
   `bufsize * 2` can overflow.
10. jcicc.c: profiles above 255*65519 bytes wrap the marker count.
11. transupp.c: the coefficient -32768 cannot be negated (C25 excludes it).
12. turbojpeg.c: tj3JPEGBufSize/tj3YUVBufSize overflow int for padded areas >= 2^31; tj3YUVPlaneSize takes abs(INT_MIN).
13. jcext.c: JINT_BASE_QUANT_TBL_IDX out of range is silently ignored.
14. jcmaster.c: validate_script is not run when optimize_scans is on; more than 64 scans would overrun scan_size[64].
15. jcphuff.c: the correction-bit buffer bound (937 + 62 < 1000) is tight and relies on Ss >= 1.
16. jcdiffct.c: on suspension `mcu_ctr += MCU_col_num` instead of the count coded; restart_in_rows capped at 65535 MCUs can give an interval
    that is not a whole number of rows (JERR_BAD_RESTART).
17. jmemmgr.c: do_sarray_io uses the unpadded row length; alloc_sarray with zero width divides by zero; with ALIGN_SIZE 16 a chunk computation
    can yield an oversize request; `start_row + num_rows` can wrap in access_virt_*.
18. jcmainct.c: jpeg_write_scanlines with num_lines = 0 after a suspension can return 1.
20. jdhuff.c decode_mcu_fast: on FF FF 00 (a fill byte before a stuffed FF, which the slow path accepts) it takes the second FF for a
    marker, fills the block with coefficients decoded from zero bits, and decode_mcu then calls the slow path on the block as it is
    (*proved*: `C48_fill_counterexample`).  The result depends on whether the buffer holds 512 bytes per block, hence on chunking.
21. jdhuff.c: decode_mcu_fast never issues JWRN_HUFF_BAD_CODE, the slow path does; an MCU retried after a suspension repeats the
    warning; the counts of extraneous bytes depend on prefetching, JWRN_MUST_RESYNC is repeated on each suspension
    (*proved*: `C30_repeated_warning`).
22. jcarith.c: no range check on DC differences; |difference| > 32768 (possible with coefficients supplied by a transcoder) yields a file
    whose block the decoder rejects as a bad code (*proved*: `C49_large_dc`); the Huffman encoder stops with JERR_BAD_DCT_COEF.
23. Call order (all *proved* as counterexamples to C29 in its plainest reading): jpeg_write_m_byte checks nothing (`C29_m_byte_unchecked`,
    `C29_m_byte_in_data`); a marker written after a row call that took no row lands after SOS (`C29_marker_after_sos`); on destroyed objects some
    calls read freed memory before the state test (`C29_destroyed_unchecked`, `C29_decomp_destroyed`); jpeg_start_output is accepted while an
    unbuffered jpeg_start_decompress is suspended in a dummy pass and vice versa (`C29_prescan_not_told_apart`); jpeg_consume_input is refused while
    jpeg_read_coefficients is suspended (`C29_consume_in_read_coefs`); jpeg_input_complete and output_scanline are stale on a reused object
    (`C29_stale_input_complete`, `C29_stale_output_scanline`); jpeg_skip_scanlines to the bottom of a buffered-image pass sets eoi_reached, so the
    scans that follow are never read (`C29_skip_ends_input`).
19. jdapistd.c jpeg_skip_scanlines (all *proved* by example on the model, `C46_bug_*`): without context rows, a skip that leaves an iMCU row
    from which nothing was read loses an iMCU row (`two_skips`), a skip that begins in the middle of a row group and ends in the same
    iMCU row delivers lines of the old row group (`stale_line`) and leaves rows_to_go too high, so that output_scanline can pass
    output_height (`too_many`); with context rows and four lines per row group a skip that begins two or three lines before the end of the
    iMCU row loses an iMCU row (`four`); jpeg_read_scanlines with room for no line before a skip has the same effect (`empty_read`).
24. jchuff.c: a destination manager that makes room once and returns FALSE later inside the same MCU gets bytes twice (example in `Out/Props`);
    libjpeg.txt asks for a manager that suspends to suspend for the whole MCU, the code does not check it.
25. Merged upsampling (*proved* by example, `C43_bug_*`): a skip past the current iMCU row from an odd line with 2:1 vertical sampling leaves the spare
    row marked full: an old line is delivered and two lines later ones follow (`odd_skip`); jpeg_skip_scanlines does not update rows_to_go of the
    merged upsampler, so with an odd height and room for two lines the last call returns two lines and output_scanline = output_height + 1
    (`too_many`); max_lines = 0 makes the upsampler write through a row pointer that was not given (`no_room`).
26. jdcol565.c: num_cols, decremented for a row that is not 4-byte aligned, is not restored for the next row of the same call, so the last
    pixel of later rows is not written (`C43_bug_last_pixel`); the dither word is set once per call, not per row, and not rotated after the
    alignment pixel, so dithered output depends on how many rows are converted per call and on the alignment of the buffer (`C43_bug_dither_rows`,
    `C43_565_separate`).
27. jcdctmgr.c:418 uses CENTERJSAMPLE, not _CENTERJSAMPLE, and jinit_forward_dct installs deringing at any precision: in a 12-bit JPEG made
    with the default settings every block with a sample below 127 and one at or above it (after the level shift) is flattened; white blocks with one
    grey sample become nearly black (*proved* by example, `C51_bug_12bit`).
28. jfdctint.c with 12-bit samples overflows JLONG where `long` has 32 bits (Windows, 32-bit systems): a block whose upper half is
    white and lower half black makes `MULTIPLY` exceed 2^31 (*proved* by example, `C52_bug_overflow`).
29. The range-limit table wraps (mask 1023) for results more than 512 from the centre, "possible if the input data is corrupt" by the comment
    in jdmaster.c, but blocks compressed by this compressor at quality 1 (all quantizers 255) reach it: a white sample comes
    back black from the C IDCT (*proved* by example, `C53_bug_wrap`; C53 says it cannot happen while the bound is below 353).
30. jdphuff.c does not check that a run of zeros stays inside the band: corrupt data can change coefficients up to scan position Se + 15 (first AC
    scan) or Se + 1 (refinement), outside the band of its scan (*proved* by example, `C54_outside_band`; `C54_safe` gives the exact range, which
    stays inside the block and never below Ss).

31. jquant1.c largest_input_value rounds the break points up, so a value is not always mapped to the nearest level: with two levels 128 becomes 0,
    and with 256 grey levels every sample above 0 is shown one too dark although its value is in the palette (*proved*: `C55_darkened`;
    `C55_nearest` bounds the loss by one).
32. jquant2.c reads `c_scales[rgb_red[out_color_space]]`; for output colour spaces that are not RGB these tables hold -1, and YCbCr output has three
    components, so jdmaster.c selects this quantizer and it reads before the start of `c_scales` (*proved* that nothing can be computed: `C57_ycc_fails`).
33. Palette entries are made of cell centres, so even an image with very few colours does not keep them: white becomes (252, 254, 252)
    (*proved*: `C57_white`, `C57_few`; `C57_centre_close` bounds the loss by half a cell).
34. compute_color sums into `long`; where it has 32 bits a box with more than 8.6 million bright pixels overflows (*proved*: `C57_long32`; `LongOk` in
    `C57_prescan` is the condition under which nothing overflows; 64 bits always do).
35. The `prev_coef_bits` status is updated only for the components of the current scan. If a scan of one component breaks off, then in the rows it did
    not reach the other components are smoothed by their status before *their* last scan: exactly known zeros of a completely received component are
    replaced by estimates (example `brokenScans` in `Smooth.Examples`).
36. In every iMCU row but the last, decompress_smooth_data takes the height of the image to be a multiple of the iMCU height: the last block rows before
    it may look at padding rows of the coefficient array (zeros after non-interleaved DC scans). With two iMCU rows of which the second has one block
    row, that row sees the row above it twice instead of the two above it. Both are in `Spec.winRow`, proved to be what the code does.
37. With jpeg_crop_scanline the left edge of the region, but not the right one, is treated as the edge of the image, so smoothed output of a region
    differs from the same part of the full output in its first two block columns (`Spec.winCol`).
38. An estimate is cast to 16 bits: with Q00 = 255, Q01 = 1 and DC values of 2000 an estimate of 85664 becomes 20128 (example; `C58_no_wrap` gives the
    condition that excludes it).
39. jt_read_integer reads numbers modulo 2^32: "4294967304x8" asks for a width of 8 (example in `Crop.Parse`).
40. Crop extension of an image narrower than one iMCU: "16fx8" reads one block far outside the row (index 2^32 - 1), "16rx8" loops forever
    (`Crop.narrow_extension`, `flat_needs_imcu`, `reflect_needs_imcu`); request and geometry are accepted.
41. The test of sampling factors before a drop only compares proportions: all components 2x1 and all 1x1 pass, and the drop then reads past the
    drop image's rows (`Crop.proportional_drop_overreads`).
42. With a forced width or height ("f") the start still moves to an iMCU corner but the size does not grow, so the far part of the request is cut off
    (`Aligned.length`). Crop extension drops the partial iMCU at the right and bottom edges of the image (`extension_content`: only whole iMCUs).
43. A drop image whose quantization table has an entry 0 (which the DQT reader accepts) where the image has another value: adjust_quant divides by zero
    (`Crop.zero_entry_divides_by_zero`).
44. adjust_quant converts table entries to 16-bit signed numbers: for steps 40000 and 50000 the "common denominator" is -16, stored as 65520, and the
    coefficients become 0 (`Crop.large_entries`). requant_comp multiplies in 16 bits: 300 steps of 120 become -295 instead of 360 steps of 100
    (`Crop.requant_wraps`).
45. If components share a table slot, a drop that changes the table for one of them (a gray drop image, or one whose components have different
    tables) leaves the others' coefficients with the wrong table (`Crop.shared_slot_corrupts`).
46. In a text PPM or PGM file a one-digit sample above the maximum is accepted and reads as 0, while larger numbers are rejected; raw one-byte samples above
    the maximum also read as 0, two-byte ones are rejected (examples in `Ppm.Props`).
47. A GIF file with a gray global colour map and a coloured local one is read as a gray image made of the red channel of the local map.
48. After the End code of GIF data LZWReadByte returns 0 once per call, but the rest of the buffer is still decoded by the following calls, so an image
    that ends early is not padded with 0; Clear directly followed by End is read as a pixel of colour 0.
49. djpeg writes the low 16 bits of width and height to a GIF or Targa header without a check; output scaled by 2 can be 131000 wide (example in `Gif.Props`).
50. Samples of a text colour map are stored modulo 2^bits without a check (300 becomes 44), and compared before that, so the map can hold a colour twice; raw PPM
    maps are read with one byte per sample in 12- and 16-bit builds too, unlike the two bytes djpeg writes (examples in `MapFile.Props`).
51. Numbers in scan scripts and table files are accumulated in a `long` without a check: 19 digits can overflow it (undefined behaviour), and smaller numbers are cut
    to 32 bits, so that 4294967296 names component 0 (examples in `Switch.Content`).

