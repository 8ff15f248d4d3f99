#!/bin/bash
# build given modules, show errors only
cd /verif/lean && lake build "$@" 2>&1 | python3 -c "
import sys
out=[];show=False
for l in sys.stdin:
    if l.startswith('error:'): show=True
    elif l.startswith(('warning:','⚠','✔','ℹ','trace:','info:')): show=False
    elif l.startswith('✖') or l.startswith('Build') : out.append(l); show=False
    if l.startswith('error:'): k=0
    if show and not l.startswith('  • '):
        k+=1
        if k<=int(__import__('os').environ.get('N','45')): out.append(l[:400] if len(l)<400 else l[:400]+'\\n')
sys.stdout.write(''.join(out)[:9000])"
